import Verif.Model.WidthCode
import Verif.Spec.WidthCode
import Verif.Proofs.Serialize
import Verif.Proofs.Decode

/-!
# Encodings on targets with a smaller `usize`
-/

namespace Ssz

open Spec

section

variable {b : Nat} {E : Env} {α β : Type}

/-! ## Arithmetic -/

theorem pows (hb : 32 ≤ b) (hb' : b ≤ 64) : 2 ^ b = 2 * 2 ^ (b - 1) ∧ 2 ^ b = 8 * 2 ^ (b - 3) ∧
    2 ^ b = 64 * 2 ^ (b - 6) ∧ 2 ^ 32 ≤ 2 ^ b ∧ 2 ^ b ≤ 2 ^ 64 := by
  refine ⟨?_, ?_, ?_, Nat.pow_le_pow_right (by decide) hb, Nat.pow_le_pow_right (by decide) hb'⟩
  · rw [← Nat.pow_succ']; congr 1; omega
  · rw [show (8 : Nat) = 2 ^ 3 from rfl, ← Nat.pow_add]; congr 1; omega
  · rw [show (64 : Nat) = 2 ^ 6 from rfl, ← Nat.pow_add]; congr 1; omega

theorem addW_ok {a c : Nat} (h : a + c < 2 ^ b) : (E.on b).add a c = .ok (a + c) := by
  simp [Target.add, h]

theorem mulW_ok {a c : Nat} (h : a * c < 2 ^ b) : (E.on b).mul a c = .ok (a * c) := by
  simp [Target.mul, h]

theorem subW_ok {a c : Nat} (h : c ≤ a) : (E.on b).sub a c = .ok (a - c) := by
  simp [Target.sub, h]

theorem subW_mod (hb' : b ≤ 64) {a c : Nat} (h : a < c) (hc : c ≤ 2 ^ b) :
    (a + usizeMod - c) % 2 ^ b = a + 2 ^ b - c := by
  have h1 : usizeMod = 2 ^ b * 2 ^ (64 - b) := by
    rw [← Nat.pow_add, ← pow64]; congr 1; omega
  have h2 : 0 < 2 ^ (64 - b) := Nat.two_pow_pos _
  obtain ⟨k, hk⟩ : ∃ k, 2 ^ (64 - b) = k + 1 := ⟨2 ^ (64 - b) - 1, by omega⟩
  rw [h1, hk, Nat.mul_succ,
    show a + (2 ^ b * k + 2 ^ b) - c = (a + 2 ^ b - c) + 2 ^ b * k by omega,
    Nat.add_mul_mod_self_left, Nat.mod_eq_of_lt (by omega)]

/-! ## Reducing errors -/

/-- The result with its error reduced. -/
abbrev red (b : Nat) (x : Res DeError α) : Res DeError α := x.mapErr (reduceError b)

@[simp] theorem red_ok (a : α) : red b (.ok a) = .ok a := rfl
@[simp] theorem red_panic : red b (.panic : Res DeError α) = .panic := rfl
@[simp] theorem red_err (e : DeError) : red b (.err e : Res DeError α) = .err (reduceError b e) := rfl

theorem red_bind {x y : Res DeError α} {f g : α → Res DeError β} (h : y = red b x)
    (h' : ∀ a, x = .ok a → g a = red b (f a)) : (y >>= g) = red b (x >>= f) := by
  subst h
  cases x with
  | ok a => exact h' a rfl
  | err e => rfl
  | panic => rfl

theorem red_map {x y : Res DeError α} (f : α → β) (h : y = red b x) : y.map f = red b (x.map f) := by
  subst h
  cases x <;> rfl

/-- No error. -/
theorem red_lift (x : Calc α) : (x.lift : Res DeError α) = red b x.lift := by
  cases x with
  | ok a => rfl
  | err e => exact e.elim
  | panic => rfl

theorem red_slice (xs : List α) (s e : Nat) : (slice xs s e : Res DeError (List α)) = red b (slice xs s e) := by
  unfold slice
  split <;> rfl

theorem red_index (xs : List α) (i : Nat) : (index xs i : Res DeError α) = red b (index xs i) := by
  unfold index
  split <;> rfl

theorem red_mapList {f g : α → Res DeError β} : ∀ xs : List α, (∀ x ∈ xs, g x = red b (f x)) →
    Res.mapList g xs = red b (Res.mapList f xs)
  | [], _ => rfl
  | x :: xs, h => by
    simp only [Res.mapList]
    rw [h x List.mem_cons_self, red_mapList xs fun y hy => h y (List.mem_cons_of_mem _ hy)]
    cases f x with
    | ok a => cases Res.mapList f xs <;> rfl
    | err e => rfl
    | panic => rfl

theorem mod_b {a : Nat} (h : a < 2 ^ b) : a % 2 ^ b = a := Nat.mod_eq_of_lt h

theorem slice_len {xs ys : List α} {s e : Nat} (h : (slice xs s e : Res DeError (List α)) = .ok ys) :
    ys.length ≤ xs.length := by
  unfold slice at h
  split at h
  · cases h
    simp only [List.length_take, List.length_drop]
    omega
  · cases h

theorem chunksExact_bounds {s : Nat} (hs : 0 < s) (xs : List α) :
    (chunksExact s xs).length ≤ xs.length ∧ ∀ c ∈ chunksExact s xs, c.length = s ∧ s ≤ xs.length := by
  induction h : xs.length using Nat.strongRecOn generalizing xs with
  | ind m ih =>
    unfold chunksExact
    split
    · rename_i hc
      have h1 := ih (xs.drop s).length (by simp only [List.length_drop]; omega) (xs.drop s) rfl
      simp only [List.length_drop] at h1
      refine ⟨by simp only [List.length_cons]; omega, fun c hcm => ?_⟩
      rcases List.mem_cons.mp hcm with rfl | hcm
      · simp only [List.length_take]; omega
      · have := h1.2 c hcm; omega
    · exact ⟨Nat.zero_le _, fun c hc => by cases hc⟩

theorem u32_lt {w : Bytes} {n : Nat} (h : deserializeU32 w = .ok n) : n < 2 ^ 32 := by
  unfold deserializeU32 at h
  cases h' : (Serializable.uint .u32).deserialize w with
  | ok v => rw [h'] at h; cases h; exact v.isLt
  | err e => rw [h'] at h; cases h
  | panic => rw [h'] at h; cases h

/-! ## Basic types -/

theorem uint_red (hb : 32 ≤ b) (hb' : b ≤ 64) (u : UintTy) (x : Bytes) (hx : x.length < 2 ^ (b - 1)) :
    (Serializable.uint u).deserialize x = red b ((Serializable.uint u).deserialize x) := by
  obtain ⟨p1, _, _, p2, _⟩ := pows hb hb'
  have hu : bitsToBytes u.bits < 2 ^ b := by
    have : bitsToBytes u.bits < 2 ^ 32 := by cases u <;> decide
    omega
  simp only [Serializable.uint]
  split
  · rw [red_err, reduceError, mod_b (by omega), mod_b hu]
  · split
    · rw [red_err, reduceError, mod_b (by omega), mod_b hu]
    · exact red_map _ (red_slice _ _ _)

theorem u32_red (hb : 32 ≤ b) (hb' : b ≤ 64) (x : Bytes) (hx : x.length < 2 ^ (b - 1)) :
    deserializeU32 x = red b (deserializeU32 x) := red_map _ (uint_red hb hb' .u32 x hx)

theorem u256_red (hb : 32 ≤ b) (hb' : b ≤ 64) (x : Bytes) (hx : x.length < 2 ^ (b - 1)) :
    SimpleSerialize.u256.deserialize x = red b (SimpleSerialize.u256.deserialize x) := by
  obtain ⟨p1, _, _, p2, _⟩ := pows hb hb'
  simp only [SimpleSerialize.u256]
  split
  · rw [red_err, reduceError, mod_b (by omega), mod_b (by omega)]
  · split
    · rw [red_err, reduceError, mod_b (by omega), mod_b (by omega)]
    · exact red_map _ (red_slice _ _ _)

theorem bool_red (hb : 32 ≤ b) (hb' : b ≤ 64) (x : Bytes) (hx : x.length < 2 ^ (b - 1)) :
    SimpleSerialize.bool.deserialize x = red b (SimpleSerialize.bool.deserialize x) := by
  obtain ⟨p1, _, _, p2, _⟩ := pows hb hb'
  simp only [SimpleSerialize.bool]
  split
  · rw [red_err, reduceError, mod_b (by omega), mod_b (by omega)]
  · split
    · rfl
    · split <;> rfl
  · rw [red_err, reduceError, mod_b (by omega), mod_b (by omega)]

theorem toNode_red (x : Bytes) : (toNode x : Res DeError Node) = red b (toNode x) := by
  unfold toNode
  split <;> rfl

theorem node_red (hb : 32 ≤ b) (hb' : b ≤ 64) (x : Bytes) (hx : x.length < 2 ^ (b - 1)) :
    SimpleSerialize.node.deserialize x = red b (SimpleSerialize.node.deserialize x) := by
  obtain ⟨p1, _, _, p2, _⟩ := pows hb hb'
  simp only [SimpleSerialize.node]
  split
  · rw [red_err, reduceError, mod_b (by omega), mod_b (by omega)]
  · split
    · rw [red_err, reduceError, mod_b (by omega), mod_b (by omega)]
    · exact red_bind (red_slice _ _ _) fun _ _ => toNode_red _

/-! ## Collections -/

/-- `W` is the implementation on a target with `b` bits of the type with the implementation `T`. -/
structure AgreesW (b : Nat) (T W : Serializable α) : Prop where
  isVar : W.isVariableSize = T.isVariableSize
  size : ∃ s, s < 2 ^ (b - 1) ∧ T.sizeHint = .ok s ∧ W.sizeHint = .ok s
  ser : W.serialize = T.serialize
  de : ∀ x : Bytes, x.length < 2 ^ (b - 1) → W.deserialize x = red b (T.deserialize x)

variable {T W : Serializable α}

theorem withElementW_eq (hb' : b ≤ 64) (h : AgreesW b T W) (s : Serializer) (x : α) :
    s.withElementW b W x = s.withElement T x := by
  obtain ⟨z, hz, h1, h2⟩ := h.size
  have : 2 ^ (b - 1) ≤ 2 ^ 63 := Nat.pow_le_pow_right (by decide) (by omega)
  unfold Serializer.withElementW Serializer.withElement
  rw [h1, h2, h.ser, h.isVar]
  simp only [Res.lift_ok, Res.ok_bind, withCapacityW, withCapacity, if_pos hz,
    if_pos (show z < isizeMax1 from Nat.lt_of_lt_of_le hz this)]
  rfl

theorem withElementsW_eq (hb' : b ≤ 64) (h : AgreesW b T W) : ∀ (xs : List α) (s : Serializer),
    s.withElementsW b W xs = s.withElements T xs
  | [], _ => rfl
  | x :: xs, s => by
    simp only [Serializer.withElementsW, Serializer.withElements, withElementW_eq hb' h s x,
      withElementsW_eq hb' h xs]

theorem fixed_red (h : AgreesW b T W) (x : Bytes) (hx : x.length < 2 ^ (b - 1)) :
    deserializeFixedHomogeneousComposite E W x = red b (deserializeFixedHomogeneousComposite E T x) := by
  obtain ⟨z, hz, h1, h2⟩ := h.size
  unfold deserializeFixedHomogeneousComposite
  rw [h1, h2]
  simp only [Res.lift_ok, Res.ok_bind]
  split
  · rfl
  · refine red_bind (red_lift _) fun _ _ => red_mapList _ fun c hc => h.de c ?_
    have := (chunksExact_bounds (by omega) x).2 c hc
    omega

theorem fixed_len {x : Bytes} {vs : List α}
    (h : deserializeFixedHomogeneousComposite E T x = .ok vs) : vs.length ≤ x.length := by
  unfold deserializeFixedHomogeneousComposite at h
  cases hs : (T.sizeHint.lift : Res DeError Nat) with
  | err e => rw [hs] at h; cases h
  | panic => rw [hs] at h; cases h
  | ok z =>
    rw [hs, Res.ok_bind] at h
    split at h
    · cases h
    · cases hd : ((E.debugAssert (x.length % z == 0)).lift : Res DeError Unit) with
      | err e => rw [hd] at h; cases h
      | panic => rw [hd] at h; cases h
      | ok u =>
        rw [hd, Res.ok_bind] at h
        rw [Res.mapList_length h]
        exact (chunksExact_bounds (by omega) x).1

theorem spans_red (hb : 32 ≤ b) (hb' : b ≤ 64) (h : AgreesW b T W) (x : Bytes)
    (hx : x.length < 2 ^ (b - 1)) : ∀ offsets : List Nat, (∀ o ∈ offsets, o < 2 ^ b) →
    deserializeSpans W x offsets = red b (deserializeSpans T x offsets)
  | [], _ => rfl
  | [_], _ => rfl
  | start :: stop :: rest, ho => by
    rw [deserializeSpans, deserializeSpans]
    split
    · rw [red_err, reduceError, mod_b (ho _ (by simp)), mod_b (ho _ (by simp))]
    · refine red_bind (red_slice _ _ _) fun piece hp => red_bind (h.de _ ?_) fun v _ =>
        red_bind (spans_red hb hb' h x hx (stop :: rest) fun o ho' => ho o (by simp_all)) fun _ _ => rfl
      have := slice_len hp
      omega

theorem spans_len {x : Bytes} : ∀ (offsets : List Nat) {vs : List α},
    deserializeSpans T x offsets = .ok vs → vs.length ≤ offsets.length - 1
  | [], vs, h => by cases h; exact Nat.zero_le _
  | [_], vs, h => by cases h; exact Nat.zero_le _
  | start :: stop :: rest, vs, h => by
    rw [deserializeSpans] at h
    split at h
    · cases h
    · obtain ⟨p, _, h⟩ := Res.bind_eq_ok.mp h
      obtain ⟨v, _, h⟩ := Res.bind_eq_ok.mp h
      obtain ⟨ws, hw, h⟩ := Res.bind_eq_ok.mp h
      cases h
      have := spans_len (stop :: rest) hw
      simp only [List.length_cons] at this ⊢
      omega

theorem mapList_u32_lt {cs : List Bytes} : ∀ {ns : List Nat}, Res.mapList deserializeU32 cs = .ok ns →
    ∀ n ∈ ns, n < 2 ^ 32 := by
  induction cs with
  | nil => intro ns h; cases h; intro n hn; cases hn
  | cons c cs ih =>
    intro ns h
    simp only [Res.mapList] at h
    cases hc : deserializeU32 c with
    | err e => rw [hc] at h; cases h
    | panic => rw [hc] at h; cases h
    | ok n =>
      rw [hc] at h
      cases hm : Res.mapList deserializeU32 cs with
      | err e => rw [hm] at h; cases h
      | panic => rw [hm] at h; cases h
      | ok ms =>
        rw [hm] at h; cases h
        intro k hk
        rcases List.mem_cons.mp hk with rfl | hk
        · exact u32_lt hc
        · exact ih hm k hk

theorem variable_red (hb : 32 ≤ b) (hb' : b ≤ 64) (h : AgreesW b T W) (x : Bytes)
    (hx : x.length < 2 ^ (b - 1)) : deserializeVariableHomogeneousComposite W x =
      red b (deserializeVariableHomogeneousComposite T x) := by
  obtain ⟨p1, _, _, p2, _⟩ := pows hb hb'
  unfold deserializeVariableHomogeneousComposite
  split
  · rfl
  · cases hg : getRange x 0 4 with
    | none => rw [red_err, reduceError, mod_b (by omega), mod_b (by omega)]
    | some word =>
      have hw : word.length ≤ x.length := by
        unfold getRange at hg
        split at hg
        · cases hg; simp only [List.length_take, List.length_drop]; omega
        · cases hg
      refine red_bind (u32_red hb hb' word (by omega)) fun n hn => ?_
      have hn := u32_lt hn
      split
      · rw [red_err, reduceError, mod_b (by omega), mod_b (by omega)]
      · split
        · rw [red_err, reduceError, mod_b (by omega)]
        · refine red_bind (red_slice _ _ _) fun head hh => ?_
          have hh := slice_len hh
          refine red_bind (red_mapList _ fun c hc => u32_red hb hb' c ?_) fun ns hns => ?_
          · have := (chunksExact_bounds (by omega) head).2 c hc
            omega
          · refine spans_red hb hb' h x hx _ fun o ho => ?_
            rcases List.mem_append.mp ho with ho | ho
            · have := mapList_u32_lt hns o ho; omega
            · rw [List.mem_singleton.mp ho]; omega

theorem variable_len {x : Bytes} {vs : List α}
    (h : deserializeVariableHomogeneousComposite T x = .ok vs) : vs.length ≤ x.length := by
  unfold deserializeVariableHomogeneousComposite at h
  split at h
  · cases h; exact Nat.zero_le _
  · cases hg : getRange x 0 4 with
    | none => rw [hg] at h; cases h
    | some word =>
      rw [hg] at h
      obtain ⟨n, _, h⟩ := Res.bind_eq_ok.mp h
      split at h
      · cases h
      · split at h
        · cases h
        · obtain ⟨head, hh, h⟩ := Res.bind_eq_ok.mp h
          obtain ⟨ns, hns, h⟩ := Res.bind_eq_ok.mp h
          have h1 := spans_len _ h
          have h2 := Res.mapList_length hns
          have h3 := (chunksExact_bounds (by omega : 0 < 4) head).1
          have h4 := slice_len hh
          simp only [List.length_append, List.length_singleton] at h1
          omega

theorem homogeneous_red (hb : 32 ≤ b) (hb' : b ≤ 64) (h : AgreesW b T W) (x : Bytes)
    (hx : x.length < 2 ^ (b - 1)) : deserializeHomogeneousComposite E W x =
      red b (deserializeHomogeneousComposite E T x) := by
  unfold deserializeHomogeneousComposite
  rw [h.isVar]
  split
  · exact variable_red hb hb' h x hx
  · exact fixed_red h x hx

theorem homogeneous_len {x : Bytes} {vs : List α}
    (h : deserializeHomogeneousComposite E T x = .ok vs) : vs.length ≤ x.length := by
  unfold deserializeHomogeneousComposite at h
  split at h
  · exact variable_len h
  · exact fixed_len h

theorem checkVectorLength_red (hb : 32 ≤ b) (hb' : b ≤ 64) (h : AgreesW b T W) {n : Nat}
    (hn : ∀ s, T.sizeHint = .ok s → s * n < 2 ^ (b - 1)) (x : Bytes) (hx : x.length < 2 ^ (b - 1)) :
    checkVectorLengthW b E W n x = red b (checkVectorLength E T n x) := by
  obtain ⟨p1, _, _, _, p2⟩ := pows hb hb'
  obtain ⟨z, hz, h1, h2⟩ := h.size
  have hnz := hn z h1
  rw [Nat.mul_comm] at hnz
  unfold checkVectorLengthW checkVectorLength
  rw [h.isVar, h1, h2]
  split
  · rfl
  · simp only [Res.lift_ok, Res.ok_bind]
    rw [mulW_ok (by omega), Env.mul_eq_ok (by rw [← pow64]; omega)]
    simp only [Res.lift_ok, Res.ok_bind]
    split
    · rw [red_err, reduceError, mod_b (by omega), mod_b (by omega)]
    · split
      · rw [red_err, reduceError, mod_b (by omega), mod_b (by omega)]
      · rfl

theorem checkListLength_red (hb : 32 ≤ b) (hb' : b ≤ 64) (h : AgreesW b T W) (x : Bytes)
    (hx : x.length < 2 ^ (b - 1)) : checkListLengthW b E W x = red b (checkListLength E T x) := by
  obtain ⟨p1, _, _, _, p2⟩ := pows hb hb'
  obtain ⟨z, hz, h1, h2⟩ := h.size
  unfold checkListLengthW checkListLength
  rw [h.isVar, h1, h2]
  split
  · rfl
  · simp only [Res.lift_ok, Res.ok_bind]
    refine red_bind (x := usizeRem x.length z) ?_ fun r hr => ?_
    · unfold usizeRem; split <;> rfl
    · have hr : r ≤ x.length := by
        unfold usizeRem at hr
        split at hr
        · cases hr
        · cases hr; exact Nat.mod_le _ _
      split
      · rw [subW_ok hr, Env.sub_eq_ok hr]
        simp only [Res.lift_ok, Res.ok_bind]
        rw [red_err, reduceError, mod_b (by omega), mod_b (by omega)]
      · rfl

theorem arrayW_agrees (hb : 32 ≤ b) (hb' : b ≤ 64) (h : AgreesW b T W) {n s : Nat} (hn : n < 2 ^ b)
    (hs : T.sizeHint = .ok s) (hsn : s * n < 2 ^ (b - 1)) :
    AgreesW b (Serializable.array E T n) (Serializable.arrayW b E W n) where
  isVar := h.isVar
  size := by
    obtain ⟨p1, _, _, _, p2⟩ := pows hb hb'
    obtain ⟨z, hz, h1, h2⟩ := h.size
    rw [h1] at hs
    cases hs
    refine ⟨s * n, hsn, ?_, ?_⟩
    · simp only [Serializable.array, h1, Res.ok_bind]
      exact Env.mul_eq_ok (by rw [← pow64]; omega)
    · simp only [Serializable.arrayW, h2, Res.ok_bind]
      exact mulW_ok (by omega)
  ser := by
    funext v
    simp only [Serializable.array, Serializable.arrayW, withElementsW_eq hb' h]
  de x hx := by
    obtain ⟨p1, _, _, _, p2⟩ := pows hb hb'
    simp only [Serializable.array, Serializable.arrayW]
    split
    · rw [red_err, reduceError, mod_b hn]
    · refine red_bind (checkVectorLength_red hb hb' h (fun z hz => by rw [hs] at hz; cases hz; exact hsn) x hx)
        fun _ _ => red_bind (homogeneous_red hb hb' h x hx) fun vs hvs => ?_
      have := homogeneous_len hvs
      split
      · rfl
      · rw [red_err, reduceError, mod_b hn, mod_b (by omega)]

theorem vectorW_agrees (hb : 32 ≤ b) (hb' : b ≤ 64) (h : AgreesW b T W) {n s : Nat} (hn : n < 2 ^ b)
    (hs : T.sizeHint = .ok s) (hsn : s * n < 2 ^ (b - 1)) :
    AgreesW b (Serializable.vector E T n) (Serializable.vectorW b E W n) where
  isVar := h.isVar
  size := by
    obtain ⟨p1, _, _, _, p2⟩ := pows hb hb'
    obtain ⟨z, hz, h1, h2⟩ := h.size
    rw [h1] at hs
    cases hs
    refine ⟨s * n, hsn, ?_, ?_⟩
    · simp only [Serializable.vector, h1, Res.ok_bind]
      exact Env.mul_eq_ok (by rw [← pow64]; omega)
    · simp only [Serializable.vectorW, h2, Res.ok_bind]
      exact mulW_ok (by omega)
  ser := by
    funext v
    simp only [Serializable.vector, Serializable.vectorW, withElementsW_eq hb' h]
  de x hx := by
    obtain ⟨p1, _, _, _, p2⟩ := pows hb hb'
    simp only [Serializable.vector, Serializable.vectorW]
    split
    · rw [red_err, reduceError, mod_b hn]
    · rename_i h0
      refine red_bind (checkVectorLength_red hb hb' h (fun z hz => by rw [hs] at hz; cases hz; exact hsn) x hx)
        fun _ _ => red_bind (homogeneous_red hb hb' h x hx) fun vs hvs => ?_
      have := homogeneous_len hvs
      by_cases hv : vs.length = n
      · have : SszVector.tryFromVec n vs = .ok vs := by
          rw [SszVector.tryFromVec, if_neg h0, if_neg (fun hc => hc hv)]
        rw [this]
        rfl
      · have : SszVector.tryFromVec n vs = .err (vs, .instance (.exact n vs.length)) := by
          rw [SszVector.tryFromVec, if_neg h0, if_pos hv]
        rw [this]
        dsimp only
        rw [red_err, reduceError, mod_b hn, mod_b (by omega)]

theorem listW_agrees (hb : 32 ≤ b) (hb' : b ≤ 64) (h : AgreesW b T W) {n : Nat} (hn : n < 2 ^ b) :
    AgreesW b (Serializable.list E T n) (Serializable.listW b E W n) where
  isVar := rfl
  size := ⟨0, Nat.two_pow_pos _, rfl, rfl⟩
  ser := by
    funext v
    simp only [Serializable.list, Serializable.listW, withElementsW_eq hb' h]
  de x hx := by
    obtain ⟨p1, _, _, _, p2⟩ := pows hb hb'
    simp only [Serializable.list, Serializable.listW]
    refine red_bind (checkListLength_red hb hb' h x hx)
      fun _ _ => red_bind (homogeneous_red hb hb' h x hx) fun vs hvs => ?_
    have := homogeneous_len hvs
    unfold SszList.tryFromVec
    split
    · rw [red_err, reduceError, mod_b hn, mod_b (by omega)]
    · rfl

/-! ## Bit sequences -/

theorem bitvectorW_agrees (hb : 32 ≤ b) (hb' : b ≤ 64) {n : Nat} (hn : n < 2 ^ (b - 3)) :
    AgreesW b (SimpleSerialize.bitvector E n).toSerializable (Serializable.bitvectorW b n) where
  isVar := rfl
  size := by
    obtain ⟨p1, p3, _, _, p2⟩ := pows hb hb'
    exact ⟨bitvectorByteLength n, by unfold bitvectorByteLength; omega, rfl, rfl⟩
  ser := rfl
  de x hx := by
    obtain ⟨p1, p3, _, _, p2⟩ := pows hb hb'
    have hl : bitvectorByteLength n < 2 ^ b := by unfold bitvectorByteLength; omega
    simp only [Serializable.bitvectorW, SimpleSerialize.bitvector]
    unfold Bitvector.deserializeW Bitvector.deserialize
    split
    · rw [red_err, reduceError, mod_b (by omega)]
    · rename_i h0
      dsimp only
      split
      · rw [red_err, reduceError, mod_b (by omega), mod_b hl]
      · split
        · rw [red_err, reduceError, mod_b (by omega), mod_b hl]
        · rw [bitsRepeatW, if_pos hn, Bitvector.default, if_neg h0]
          simp only [Res.ok_bind]
          split
          · cases x.getLast? with
            | none => rfl
            | some y =>
              dsimp only
              split <;> rfl
          · rfl

theorem trailing_lt : ∀ x : Byte, x ≠ 0 → (Bits.fromBytes [x]).trailingZeros < 8 := by decide +kernel

theorem bits_fromBytes_len (x : Bytes) : (Bits.fromBytes x).len = 8 * x.length := by
  induction x with
  | nil => rfl
  | cons y x ih =>
    simp only [Bits.fromBytes, Bits.len] at ih ⊢
    simp [bitsOfByte, ih]
    omega

theorem bitlistW_agrees (hb : 32 ≤ b) (hb' : b ≤ 64) {n : Nat} (hn : n < 2 ^ (b - 3)) :
    AgreesW b (SimpleSerialize.bitlist E n).toSerializable (Serializable.bitlistW b E n) where
  isVar := rfl
  size := ⟨0, Nat.two_pow_pos _, rfl, rfl⟩
  ser := rfl
  de x hx := by
    obtain ⟨p1, p3, p6, p4, p2⟩ := pows hb hb'
    simp only [Serializable.bitlistW, SimpleSerialize.bitlist]
    unfold Bitlist.deserializeW Bitlist.deserialize
    cases x.getLast? with
    | none => dsimp only; rw [red_err, reduceError, mod_b (by omega), mod_b (by omega)]
    | some last =>
      have h1 : bitlistByteLengthW b E n = .ok ((n + 8) / 8) := by
        unfold bitlistByteLengthW
        rw [addW_ok (by omega), Res.ok_bind, subW_ok (by omega), Res.ok_bind, addW_ok (by omega), Res.ok_bind]
        congr 2
      have h2 : bitlistByteLength E n = .ok ((n + 8) / 8) := by
        unfold bitlistByteLength
        rw [Env.add_eq_ok (by rw [← pow64]; omega), Res.ok_bind, Env.sub_eq_ok (by omega), Res.ok_bind,
          Env.add_eq_ok (by rw [← pow64]; omega), Res.ok_bind]
        congr 2
      rw [h1, h2]
      simp only [Res.lift_ok, Res.ok_bind]
      split
      · rw [red_err, reduceError, mod_b (by omega), mod_b (by omega)]
      · split
        · rfl
        · rename_i hz
          have hd : x.dropLast.length ≤ 2 ^ (b - 6) := by
            rw [List.length_dropLast]; omega
          have ht := trailing_lt last hz
          rw [bitsFromSliceW, if_pos hd, Res.ok_bind, subW_ok ht.le, Env.sub_eq_ok ht.le]
          simp only [Res.lift_ok, Res.ok_bind]
          rw [subW_ok (by omega), Env.sub_eq_ok (by omega)]
          simp only [Res.lift_ok, Res.ok_bind]
          have hl := bits_fromBytes_len x.dropLast
          rw [List.length_dropLast] at hl
          split
          · rw [red_err, reduceError, mod_b (by omega), mod_b (by omega)]
          · exact red_bind (red_slice _ _ _) fun _ _ => rfl

/-! ## `Option` and newtypes -/

theorem optionW_agrees (hb : 32 ≤ b) (hb' : b ≤ 64) (h : AgreesW b T W) :
    AgreesW b (Serializable.option T) (Serializable.option W) where
  isVar := rfl
  size := ⟨0, Nat.two_pow_pos _, rfl, rfl⟩
  ser := by
    funext v
    cases v with
    | none => rfl
    | some x => simp only [Serializable.option, serializeWithSelector, h.ser]
  de x hx := by
    obtain ⟨p1, p3, p6, p4, p2⟩ := pows hb hb'
    cases x with
    | nil =>
      simp only [Serializable.option]
      rw [red_err, reduceError, mod_b (by omega), mod_b (by omega)]
    | cons y rest =>
      simp only [Serializable.option]
      split
      · split
        · rw [red_err, reduceError, mod_b (by omega), mod_b (by omega)]
        · rfl
      · split
        · refine red_bind (h.de rest ?_) fun _ _ => rfl
          simp only [List.length_cons] at hx
          omega
        · rfl

theorem newtypeW_agrees (h : AgreesW b T W) {S : SimpleSerialize α} (hS : S.toSerializable = T) :
    AgreesW b (SimpleSerialize.newtype E S).toSerializable (Serializable.newtypeW W) where
  isVar := by subst hS; exact h.isVar
  size := by
    subst hS
    obtain ⟨z, hz, h1, h2⟩ := h.size
    simp only [SimpleSerialize.newtype, Serializable.newtypeW, h.isVar]
    split
    · exact ⟨0, Nat.two_pow_pos _, rfl, rfl⟩
    · exact ⟨z, hz, h1, h2⟩
  ser := by subst hS; exact h.ser
  de x hx := by
    subst hS
    exact red_bind (h.de x hx) fun _ _ => rfl

/-! ## Structs -/

/-- The implementations of the fields on a target with `b` bits. -/
inductive AgreesFW (b : Nat) : {α : Type} → FieldImpls α → FieldCodes α → Prop where
  | nil : AgreesFW b .nil .nil
  | cons {α β : Type} {name : String} {S : SimpleSerialize α} {W : Serializable α} {fs : FieldImpls β}
      {gs : FieldCodes β} : AgreesW b S.toSerializable W → AgreesFW b fs gs →
      AgreesFW b (.cons name S fs) (.cons W gs)

variable {fs : FieldImpls α} {gs : FieldCodes α}

theorem AgreesFW.isVar (h : AgreesFW b fs gs) : gs.isVariableSize = fs.isVariableSize := by
  induction h with
  | nil => rfl
  | cons h _ ih => simp only [FieldCodes.isVariableSize, FieldImpls.isVariableSize, h.isVar, ih]

theorem AgreesFW.withElements (hb' : b ≤ 64) (h : AgreesFW b fs gs) : ∀ v s,
    gs.withElementsW b v s = fs.withElements v s := by
  induction h with
  | nil => exact fun _ _ => rfl
  | cons h _ ih =>
    intro v s
    simp only [FieldCodes.withElementsW, FieldImpls.withElements, withElementW_eq hb' h, ih]

/-- What holds of a `ContainerDeserializer` between two fields. -/
structure Between (L : Nat) (d : ContainerDeserializer) : Prop where
  total : d.totalBytesRead ≤ L
  small : ∀ o ∈ d.offsets, o < 2 ^ 32
  chain : d.offsets.IsChain (· ≤ ·)

theorem subW_red (hb' : b ≤ 64) {a c : Nat} (hc : c ≤ 2 ^ b) (ha : a < 2 ^ b)
    (f g : Nat → Res DeError α) (h : ∀ m m', m % 2 ^ b = m' → g m' = red b (f m)) :
    (((E.on b).sub a c).lift >>= g) = red b ((E.sub a c).lift >>= f) := by
  unfold Target.sub Env.sub
  split
  · simp only [Res.lift_ok, Res.ok_bind]
    exact h _ _ (mod_b (by omega))
  · dsimp only
    split
    · rfl
    · simp only [Res.lift_ok, Res.ok_bind]
      exact h _ _ (subW_mod hb' (by omega) hc)

theorem checkOffset_red (hb : 32 ≤ b) (hb' : b ≤ 64) {L : Nat} (hL : L < 2 ^ (b - 1)) {prev : Option Nat}
    {next : Nat} (hp : ∀ p ∈ prev, p < 2 ^ 32) (hn : next < 2 ^ 32) :
    checkOffsetW b E L prev next = red b (checkOffset E L prev next) := by
  obtain ⟨p1, _, _, p2, _⟩ := pows hb hb'
  unfold checkOffsetW checkOffset
  cases prev with
  | none => rfl
  | some p =>
    have hp := hp p rfl
    dsimp only
    split
    · rw [red_err, reduceError, mod_b (by omega), mod_b (by omega)]
    · split
      · refine subW_red hb' (by omega) (by omega) _ _ fun m m' hm =>
          subW_red hb' (by omega) (by omega) _ _ fun k k' hk => ?_
        rw [red_err, reduceError, hm, hk]
      · split
        · refine subW_red hb' (by omega) (by omega) _ _ fun m m' hm =>
            subW_red hb' (by omega) (by omega) _ _ fun k k' hk => ?_
          rw [red_err, reduceError, hm, hk]
        · rfl

theorem checkOffset_le {L : Nat} {prev : Option Nat} {next : Nat} {u : Unit}
    (h : checkOffset E L prev next = .ok u) : ∀ p ∈ prev, p ≤ next := by
  intro p hp
  cases hp
  unfold checkOffset at h
  dsimp only at h
  split at h
  · cases h
  · omega

theorem parse_red (hb : 32 ≤ b) (hb' : b ≤ 64) (h : AgreesW b T W) {d : ContainerDeserializer} (x : Bytes)
    (hx : x.length < 2 ^ (b - 1)) (hd : Between x.length d) :
    d.parseW b E W x = red b (d.parse E T x) := by
  obtain ⟨p1, _, _, p2, p3⟩ := pows hb hb'
  have ht := hd.total
  unfold ContainerDeserializer.parseW ContainerDeserializer.parse
  rw [h.isVar]
  dsimp only
  split
  · rw [subW_ok ht, Env.sub_eq_ok ht]
    simp only [Res.lift_ok, Res.ok_bind]
    cases hg : getRange x d.totalBytesRead (d.totalBytesRead + 4) with
    | none => dsimp only; rw [red_err, reduceError, mod_b (by omega), mod_b (by omega)]
    | some word =>
      have hw : word.length ≤ x.length := by
        unfold getRange at hg
        split at hg
        · cases hg; simp only [List.length_take, List.length_drop]; omega
        · cases hg
      refine red_bind (u32_red hb hb' word (by omega)) fun n hn =>
        red_bind (checkOffset_red hb hb' hx (fun p hp => ?_) (u32_lt hn)) fun _ _ => rfl
      exact hd.small p (List.mem_of_getLast? hp)
  · obtain ⟨z, hz, h1, h2⟩ := h.size
    rw [h1, h2]
    simp only [Res.lift_ok, Res.ok_bind]
    rw [addW_ok (by omega), Env.add_eq_ok (by rw [← pow64]; omega)]
    simp only [Res.lift_ok, Res.ok_bind]
    split
    · omega
    · split
      · rw [subW_ok ht, Env.sub_eq_ok ht]
        simp only [Res.lift_ok, Res.ok_bind]
        rw [red_err, reduceError, mod_b (by omega), mod_b (by omega)]
      · rfl

theorem parse_between (hb : 32 ≤ b) (hb' : b ≤ 64) (h : AgreesW b T W) {d d' : ContainerDeserializer}
    {x : Bytes} (hx : x.length < 2 ^ (b - 1)) (hd : Between x.length d) (hp : d.parse E T x = .ok d') :
    Between x.length d' := by
  obtain ⟨p1, _, _, p2, p3⟩ := pows hb hb'
  have ht := hd.total
  unfold ContainerDeserializer.parse at hp
  dsimp only at hp
  split at hp
  · rw [Env.sub_eq_ok ht] at hp
    simp only [Res.lift_ok, Res.ok_bind] at hp
    cases hg : getRange x d.totalBytesRead (d.totalBytesRead + 4) with
    | none => rw [hg] at hp; cases hp
    | some word =>
      rw [hg] at hp
      obtain ⟨n, hn, hp⟩ := Res.bind_eq_ok.mp hp
      obtain ⟨u, hu, hp⟩ := Res.bind_eq_ok.mp hp
      cases hp
      refine ⟨?_, fun o ho => ?_, ?_⟩
      · unfold getRange at hg
        split at hg
        · dsimp only; omega
        · cases hg
      · rcases List.mem_append.mp ho with ho | ho
        · exact hd.small o ho
        · rw [List.mem_singleton.mp ho]; exact u32_lt hn
      · refine List.isChain_append.mpr ⟨hd.chain, List.isChain_singleton _, fun p hp q hq => ?_⟩
        cases hq
        exact checkOffset_le hu p hp
  · obtain ⟨z, hz, h1, h2⟩ := h.size
    rw [h1] at hp
    simp only [Res.lift_ok, Res.ok_bind] at hp
    rw [Env.add_eq_ok (by rw [← pow64]; omega)] at hp
    simp only [Res.lift_ok, Res.ok_bind] at hp
    split at hp
    · cases hp
    · split at hp
      · rw [Env.sub_eq_ok ht] at hp
        cases hp
      · cases hp
        exact ⟨by dsimp only; omega, hd.small, hd.chain⟩

theorem AgreesFW.parseAll (hb : 32 ≤ b) (hb' : b ≤ 64) (h : AgreesFW b fs gs) (x : Bytes)
    (hx : x.length < 2 ^ (b - 1)) : ∀ d, Between x.length d →
    gs.parseAllW b E x d = red b (fs.parseAll E x d) ∧
      ∀ d', fs.parseAll E x d = .ok d' → Between x.length d' := by
  induction h with
  | nil => exact fun d hd => ⟨rfl, fun d' h => by cases h; exact hd⟩
  | cons h _ ih =>
    intro d hd
    simp only [FieldCodes.parseAllW, FieldImpls.parseAll]
    refine ⟨red_bind (parse_red hb hb' h x hx hd) fun d' hd' =>
      (ih d' (parse_between hb hb' h hx hd hd')).1, fun d'' h'' => ?_⟩
    obtain ⟨d', hd', h''⟩ := Res.bind_eq_ok.mp h''
    exact (ih d' (parse_between hb hb' h hx hd hd')).2 d'' h''

theorem AgreesFW.initFields (h : AgreesFW b fs gs) (x : Bytes) (hx : x.length < 2 ^ (b - 1))
    (spans : List Nat) : ∀ i, gs.initFields x spans i = red b (fs.initFields x spans i) := by
  induction h with
  | nil => exact fun _ => rfl
  | cons h _ ih =>
    intro i
    simp only [FieldCodes.initFields, FieldImpls.initFields]
    refine red_bind (red_index _ _) fun _ _ => red_bind (red_index _ _) fun _ _ =>
      red_bind (red_slice _ _ _) fun p hp => red_bind (h.de p ?_) fun _ _ => red_bind (ih _) fun _ _ => rfl
    have := slice_len hp
    omega

theorem segments_red (hb : 32 ≤ b) (hb' : b ≤ 64) {L : Nat} (hL : L < 2 ^ (b - 1)) :
    ∀ (segments : List Segment) (offsets : List Nat) (total : Nat), (∀ o ∈ offsets, o < 2 ^ b) →
      offsets.IsChain (fun a c => a ≤ c ∨ L < a) → total ≤ 2 * L → (∀ o ∈ offsets[0]?, total ≤ L + o) →
      finalizeSegmentsW b E L segments offsets total = red b (finalizeSegments E L segments offsets total) ∧
        ∀ r, finalizeSegments E L segments offsets total = .ok r → r.2 ≤ 2 * L
  | [], _, _, _, _, ht, _ => ⟨rfl, fun r h => by cases h; exact ht⟩
  | .fixed start stop :: rest, offsets, total, ho, hc, ht, h0 => by
    obtain ⟨i1, i2⟩ := segments_red hb hb' hL rest offsets total ho hc ht h0
    simp only [finalizeSegmentsW, finalizeSegments]
    refine ⟨red_bind i1 fun _ _ => rfl, fun r h => ?_⟩
    obtain ⟨r', hr', h⟩ := Res.bind_eq_ok.mp h
    cases h
    exact i2 r' hr'
  | .offset :: rest, offsets, total, ho, hc, ht, h0 => by
    obtain ⟨p1, _, _, p2, p3⟩ := pows hb hb'
    simp only [finalizeSegmentsW, finalizeSegments]
    match offsets, ho, hc, h0 with
    | [], _, _, _ => exact ⟨rfl, fun r h => by cases h⟩
    | [_], _, _, _ => exact ⟨rfl, fun r h => by cases h⟩
    | start :: stop :: more, ho, hc, h0 =>
      have h0 := h0 start rfl
      have hs := ho start (by simp)
      have hs' := ho stop (by simp)
      have hc1 := List.isChain_cons_cons.mp hc
      simp only [List.getElem?_cons_zero, List.getElem?_cons_succ, List.drop_succ_cons, List.drop_zero]
      split
      · exact ⟨by rw [red_err, reduceError, mod_b (by omega), mod_b (by omega)], fun r h => by cases h⟩
      · split
        · exact ⟨by rw [red_err, reduceError, mod_b (by omega), mod_b (by omega)], fun r h => by cases h⟩
        · have hle : start ≤ stop := by rcases hc1.1 with h | h <;> omega
          rw [subW_ok hle, Env.sub_eq_ok hle]
          simp only [Res.lift_ok, Res.ok_bind]
          rw [addW_ok (by omega), Env.add_eq_ok (by rw [← pow64]; omega)]
          simp only [Res.lift_ok, Res.ok_bind]
          obtain ⟨i1, i2⟩ := segments_red hb hb' hL rest (stop :: more) (total + (stop - start))
            (fun o h => ho o (List.mem_cons_of_mem _ h)) hc1.2 (by omega) (fun o h => by cases h; omega)
          refine ⟨red_bind i1 fun _ _ => rfl, fun r h => ?_⟩
          obtain ⟨r', hr', h⟩ := Res.bind_eq_ok.mp h
          cases h
          exact i2 r' hr'

theorem finalize_red (hb : 32 ≤ b) (hb' : b ≤ 64) {d : ContainerDeserializer} (x : Bytes)
    (hx : x.length < 2 ^ (b - 1)) (hd : Between x.length d) :
    d.finalizeW b E x = red b (d.finalize E x) := by
  obtain ⟨p1, _, _, p2, p3⟩ := pows hb hb'
  unfold ContainerDeserializer.finalizeW ContainerDeserializer.finalize
  have hchain : (d.offsets ++ [x.length]).IsChain (fun a c => a ≤ c ∨ x.length < a) := by
    refine List.isChain_append.mpr ⟨hd.chain.imp fun _ _ h => .inl h, List.isChain_singleton _,
      fun p _ q hq => ?_⟩
    cases hq
    omega
  have hall : ∀ o ∈ d.offsets ++ [x.length], o < 2 ^ b := fun o ho => by
    rcases List.mem_append.mp ho with ho | ho
    · have := hd.small o ho; omega
    · rw [List.mem_singleton.mp ho]; omega
  have ht := hd.total
  obtain ⟨i1, i2⟩ := segments_red (E := E) hb hb' hx d.segments _ d.totalBytesRead hall hchain (by omega)
    (fun o _ => by omega)
  refine red_bind i1 fun r hr => ?_
  have hr := i2 r hr
  dsimp only
  split
  · rw [red_err, reduceError, mod_b (by omega), mod_b (by omega)]
  · split
    · rw [red_err, reduceError, mod_b (by omega), mod_b (by omega)]
    · rfl

theorem containerW_agrees (hb : 32 ≤ b) (hb' : b ≤ 64) (h : AgreesFW b fs gs) {s : Nat} (hs : s < 2 ^ (b - 1))
    (h1 : (SimpleSerialize.container E fs).sizeHint = .ok s)
    (h2 : (Serializable.containerW b E gs).sizeHint = .ok s) :
    AgreesW b (SimpleSerialize.container E fs).toSerializable (Serializable.containerW b E gs) where
  isVar := h.isVar
  size := ⟨s, hs, h1, h2⟩
  ser := by
    funext v
    simp only [SimpleSerialize.container, Serializable.containerW, h.withElements hb']
  de x hx := by
    simp only [SimpleSerialize.container, Serializable.containerW]
    have hd : Between x.length {} := ⟨Nat.zero_le _, (fun o ho => by cases ho), List.isChain_nil⟩
    obtain ⟨i1, i2⟩ := h.parseAll (E := E) hb hb' x hx {} hd
    exact red_bind i1 fun d hd => red_bind (finalize_red hb hb' x hx (i2 d hd)) fun spans _ =>
      h.initFields x hx spans 0

/-! ## Enums -/

/-- The implementations of the variants on a target with `b` bits. -/
inductive AgreesVW (b : Nat) : {α : Type} → VariantImpls α → VariantCodes α → Prop where
  | nil : AgreesVW b .nil .nil
  | unit {β : Type} {vs : VariantImpls β} {ws : VariantCodes β} : AgreesVW b vs ws →
      AgreesVW b (.unit vs) (.unit ws)
  | data {α β : Type} {S : SimpleSerialize α} {W : Serializable α} {vs : VariantImpls β}
      {ws : VariantCodes β} : AgreesW b S.toSerializable W → AgreesVW b vs ws →
      AgreesVW b (.data S vs) (.data W ws)

variable {vs : VariantImpls α} {ws : VariantCodes α}

theorem AgreesVW.serialize (h : AgreesVW b vs ws) : ∀ i v, ws.serialize i v = vs.serialize i v := by
  induction h with
  | nil => exact fun _ v => v.elim
  | unit _ ih =>
    intro i v
    rcases v with _ | v
    · rfl
    · exact ih (i + 1) v
  | data h _ ih =>
    intro i v
    rcases v with v | v
    · simp only [VariantCodes.serialize, VariantImpls.serialize, serializeWithSelector, h.ser]
    · exact ih (i + 1) v

theorem AgreesVW.deserialize (hb : 32 ≤ b) (hb' : b ≤ 64) (h : AgreesVW b vs ws) (y : Byte)
    (rest x : Bytes) (hr : rest.length < 2 ^ (b - 1)) (hx : x.length < 2 ^ (b - 1)) : ∀ i,
    ws.deserialize y rest x i = red b (vs.deserialize y rest x i) := by
  obtain ⟨p1, _, _, p2, p3⟩ := pows hb hb'
  induction h with
  | nil => exact fun _ => rfl
  | unit _ ih =>
    intro i
    simp only [VariantCodes.deserialize, VariantImpls.deserialize]
    split
    · split
      · rw [red_err, reduceError, mod_b (by omega), mod_b (by omega)]
      · rfl
    · exact red_map _ (ih _)
  | data h _ ih =>
    intro i
    simp only [VariantCodes.deserialize, VariantImpls.deserialize]
    split
    · exact red_map _ (h.de rest hr)
    · exact red_map _ (ih _)

theorem unionW_agrees (hb : 32 ≤ b) (hb' : b ≤ 64) (h : AgreesVW b vs ws) :
    AgreesW b (SimpleSerialize.union E vs).toSerializable (Serializable.unionW ws) where
  isVar := rfl
  size := ⟨0, Nat.two_pow_pos _, rfl, rfl⟩
  ser := funext fun v => h.serialize 0 v
  de x hx := by
    obtain ⟨p1, _, _, p2, p3⟩ := pows hb hb'
    simp only [SimpleSerialize.union, Serializable.unionW]
    cases x with
    | nil => dsimp only; rw [red_err, reduceError, mod_b (by omega), mod_b (by omega)]
    | cons y rest =>
      simp only [List.length_cons] at hx
      exact h.deserialize hb hb' y rest _ (by omega) (by simpa using hx) 0

end

/-! ## All types -/

mutual

theorem fits_of_fitsW {b : Nat} (hb : 32 ≤ b) (hb' : b ≤ 64) : ∀ t : Ty, FitsW b t → Fits t
  | .uint _, _ => trivial
  | .u256, _ => trivial
  | .bool, _ => trivial
  | .node, _ => trivial
  | .array t _, h => ⟨fits_of_fitsW hb hb' t h.1,
      Nat.lt_of_lt_of_le h.2.2 (Nat.pow_le_pow_right (by decide) (by omega))⟩
  | .vector t _, h => ⟨fits_of_fitsW hb hb' t h.1,
      Nat.lt_of_lt_of_le h.2.2 (Nat.pow_le_pow_right (by decide) (by omega))⟩
  | .list t _, h => fits_of_fitsW hb hb' t h.1
  | .bitvector n, h => by
    obtain ⟨_, p3, _, _, p2⟩ := pows hb hb'
    have h : n < 2 ^ (b - 3) := h
    show n < 2 ^ 64
    omega
  | .bitlist n, h => by
    obtain ⟨_, p3, _, p4, p2⟩ := pows hb hb'
    have h : n < 2 ^ (b - 3) := h
    show n + 8 < 2 ^ 64
    omega
  | .option t, h => fits_of_fitsW hb hb' t h
  | .newtype t, h => fits_of_fitsW hb hb' t h
  | .container fs, h => ⟨fits_of_fitsWF hb hb' fs h.1,
      Nat.lt_of_lt_of_le h.2 (Nat.pow_le_pow_right (by decide) (by omega))⟩
  | .union vs, h => fits_of_fitsWV hb hb' vs h

theorem fits_of_fitsWF {b : Nat} (hb : 32 ≤ b) (hb' : b ≤ 64) : ∀ fs : Fields, FitsWF b fs → FitsF fs
  | .nil, _ => trivial
  | .cons _ t rest, h => ⟨fits_of_fitsW hb hb' t h.1, fits_of_fitsWF hb hb' rest h.2⟩

theorem fits_of_fitsWV {b : Nat} (hb : 32 ≤ b) (hb' : b ≤ 64) : ∀ vs : Variants, FitsWV b vs → FitsV vs
  | .nil, _ => trivial
  | .unit rest, h => fits_of_fitsWV hb hb' rest h
  | .data t rest, h => ⟨fits_of_fitsW hb hb' t h.1, fits_of_fitsWV hb hb' rest h.2⟩

end

mutual

theorem codeW_agrees {b : Nat} (E : Env) (hb : 32 ≤ b) (hb' : b ≤ 64) : ∀ t : Ty, FitsW b t →
    AgreesW b (t.impl E).toSerializable (t.codeW b E)
  | .uint u, _ => ⟨rfl, ⟨bitsToBytes u.bits, Nat.lt_of_lt_of_le (m := 2 ^ 31) (by cases u <;> decide)
      (Nat.pow_le_pow_right (by decide) (by omega)), rfl, rfl⟩, rfl, uint_red hb hb' u⟩
  | .u256, _ => ⟨rfl, ⟨32, Nat.lt_of_lt_of_le (m := 2 ^ 31) (by decide)
      (Nat.pow_le_pow_right (by decide) (by omega)), rfl, rfl⟩, rfl, u256_red hb hb'⟩
  | .bool, _ => ⟨rfl, ⟨1, Nat.lt_of_lt_of_le (m := 2 ^ 31) (by decide)
      (Nat.pow_le_pow_right (by decide) (by omega)), rfl, rfl⟩, rfl, bool_red hb hb'⟩
  | .node, _ => ⟨rfl, ⟨32, Nat.lt_of_lt_of_le (m := 2 ^ 31) (by decide)
      (Nat.pow_le_pow_right (by decide) (by omega)), rfl, rfl⟩, rfl, node_red hb hb'⟩
  | .array t _, h => arrayW_agrees hb hb' (codeW_agrees E hb hb' t h.1) h.2.1
      (impl_sizeHint E t (fits_of_fitsW hb hb' t h.1)) h.2.2
  | .vector t _, h => vectorW_agrees hb hb' (codeW_agrees E hb hb' t h.1) h.2.1
      (impl_sizeHint E t (fits_of_fitsW hb hb' t h.1)) h.2.2
  | .list t _, h => listW_agrees hb hb' (codeW_agrees E hb hb' t h.1) h.2
  | .bitvector _, h => bitvectorW_agrees hb hb' h
  | .bitlist _, h => bitlistW_agrees hb hb' h
  | .option t, h => optionW_agrees hb hb' (codeW_agrees E hb hb' t h)
  | .newtype t, h => newtypeW_agrees (codeW_agrees E hb hb' t h) rfl
  | .container fs, h => by
    obtain ⟨p1, _, _, _, _⟩ := pows hb hb'
    have hf : Fits (.container fs) := fits_of_fitsW hb hb' (.container fs) h
    have hl : fixedLen (.container fs) < 2 ^ (b - 1) := by
      rw [fixedLen]
      split
      · exact Nat.two_pow_pos _
      · exact h.2
    refine containerW_agrees hb hb' (codesW_agrees E hb hb' fs h.1) hl (impl_sizeHint E (.container fs) hf) ?_
    show (if (fs.codesW b E).isVariableSize then .ok 0 else (fs.codesW b E).sizeHintSumW b E 0) = _
    rw [(codesW_agrees E hb hb' fs h.1).isVar, impls_isVar, fixedLen]
    split
    · rfl
    · rename_i hv
      rw [codesW_size E hb hb' fs h.1 (by simpa using hv) 0 (by have := h.2; omega), Nat.zero_add]
  | .union vs, h => unionW_agrees hb hb' (variantsW_agrees E hb hb' vs h)

theorem codesW_agrees {b : Nat} (E : Env) (hb : 32 ≤ b) (hb' : b ≤ 64) : ∀ fs : Fields, FitsWF b fs →
    AgreesFW b (fs.impls E) (fs.codesW b E)
  | .nil, _ => .nil
  | .cons _ t rest, h => .cons (codeW_agrees E hb hb' t h.1) (codesW_agrees E hb hb' rest h.2)

theorem codesW_size {b : Nat} (E : Env) (hb : 32 ≤ b) (hb' : b ≤ 64) : ∀ fs : Fields, FitsWF b fs →
    isVarF fs = false → ∀ acc, acc + fixedLenF fs < 2 ^ b →
    (fs.codesW b E).sizeHintSumW b E acc = .ok (acc + fixedLenF fs)
  | .nil, _, _, _, _ => rfl
  | .cons _ t rest, h, hv, acc, hlt => by
    simp only [isVarF, Bool.or_eq_false_iff] at hv
    simp only [fixedLenF, hv.1, Bool.false_eq_true, if_false] at hlt ⊢
    obtain ⟨z, _, h1, h2⟩ := (codeW_agrees E hb hb' t h.1).size
    rw [impl_sizeHint E t (fits_of_fitsW hb hb' t h.1)] at h1
    cases h1
    show ((t.codeW b E).sizeHint >>= fun s => (E.on b).add acc s >>= fun acc' =>
      (rest.codesW b E).sizeHintSumW b E acc') = _
    rw [h2, Res.ok_bind, addW_ok (by omega), Res.ok_bind,
      codesW_size E hb hb' rest h.2 hv.2 _ (by omega), Nat.add_assoc]

theorem variantsW_agrees {b : Nat} (E : Env) (hb : 32 ≤ b) (hb' : b ≤ 64) : ∀ vs : Variants, FitsWV b vs →
    AgreesVW b (vs.impls E) (vs.codesW b E)
  | .nil, _ => .nil
  | .unit rest, h => .unit (variantsW_agrees E hb hb' rest h)
  | .data t rest, h => .data (codeW_agrees E hb hb' t h.1) (variantsW_agrees E hb hb' rest h.2)

end

end Ssz
