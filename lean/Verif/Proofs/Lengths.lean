import Verif.Proofs.Errors
import Verif.Spec.Lengths

/-!
# Inputs of the wrong length
-/

namespace Ssz

open Spec

/-- The result is a value, or an error about a byte of the input. -/
def Clean {α : Type} (b : Bytes) : Res DeError α → Prop
  | .ok _ => True
  | .err e => ∃ x ∈ b, e = .invalidByte x
  | .panic => False

namespace Clean

variable {α β : Type} {b : Bytes}

theorem bind {x : Res DeError α} {f : α → Res DeError β} (h : Clean b x)
    (hf : ∀ a, x = .ok a → Clean b (f a)) : Clean b (x >>= f) := by
  match x with
  | .ok a => exact hf a rfl
  | .err e => exact h
  | .panic => exact h.elim

theorem mono {p : Bytes} {r : Res DeError α} (h : Within p b) (hr : Clean p r) : Clean b r := by
  match r with
  | .ok _ => trivial
  | .err e =>
    obtain ⟨x, hx, he⟩ := hr
    exact ⟨x, h.2 x hx, he⟩
  | .panic => exact hr.elim

theorem mapList {f : α → Res DeError β} : ∀ {xs : List α}, (∀ x ∈ xs, Clean b (f x)) →
    Clean b (Res.mapList f xs)
  | [], _ => trivial
  | x :: xs, h => by
    have ih := Clean.mapList (f := f) fun y hy => h y (List.mem_cons_of_mem x hy)
    have h0 := h x (by simp)
    unfold Res.mapList
    match hx : f x with
    | .ok y =>
      match hy : Res.mapList f xs with
      | .ok ys => trivial
      | .err e => rw [hy] at ih; exact ih
      | .panic => rw [hy] at ih; exact ih.elim
    | .err e => rw [hx] at h0; exact h0
    | .panic => rw [hx] at h0; exact h0.elim

end Clean

theorem homogeneous_clean {α : Type} (E : Env) {T : Serializable α} {s : Nat}
    (hv : T.isVariableSize = false) (hs : T.sizeHint = .ok s) (hpos : 0 < s) {b : Bytes}
    (hmod : b.length % s = 0) (hT : ∀ p, Within p b → p.length = s → Clean p (T.deserialize p)) :
    Clean b (deserializeHomogeneousComposite E T b) ∧
      ∀ vs, deserializeHomogeneousComposite E T b = .ok vs → b.length = s * vs.length := by
  have h : deserializeHomogeneousComposite E T b = Res.mapList T.deserialize (chunksExact s b) := by
    unfold deserializeHomogeneousComposite deserializeFixedHomogeneousComposite
    rw [hv, if_neg (by simp), hs]
    simp only [Res.lift_ok, Res.ok_bind]
    rw [if_neg (by omega), hmod]
    simp only [beq_self_eq_true, Env.debugAssert_true, Res.lift_ok, Res.ok_bind]
  rw [h]
  refine ⟨Clean.mapList fun c hc => ?_, fun vs hvs => ?_⟩
  · have := chunk_part hpos hmod hc
    exact (hT c this ((chunksExact_spec hpos b hmod).2 c hc)).mono this
  · rw [Res.mapList_length hvs]
    exact chunksExact_length hpos b hmod

theorem checkVectorLength_eq {α : Type} {E : Env} {T : Serializable α} {s n : Nat} {b : Bytes}
    (hv : T.isVariableSize = false) (hs : T.sizeHint = .ok s) (hn : n * s < usizeMod) :
    checkVectorLength E T n b =
      if b.length < n * s then .err (.expectedFurtherInput b.length (n * s))
      else if b.length > n * s then .err (.additionalInput b.length (n * s)) else .ok () := by
  unfold checkVectorLength
  rw [hv, if_neg (by simp), hs, Res.lift_ok, Res.ok_bind, Env.mul_eq_ok hn, Res.lift_ok, Res.ok_bind]

/-! ## Structs -/

/-- The segments of fixed parts. -/
def segsOf : Nat → Shape → List Segment
  | _, [] => []
  | T, (_, s) :: sh => .fixed T (T + s) :: segsOf (T + s) sh

/-- `tooShortF` on shapes. -/
def shortOf : Nat → Shape → DeError
  | len, [] => .expectedFurtherInput len 0
  | len, (_, s) :: sh => if len < s then .expectedFurtherInput len s else shortOf (len - s) sh

theorem shortOf_shapeF : ∀ (fs : Fields) (len : Nat), shortOf len (shapeF fs) = tooShortF fs len
  | .nil, _ => rfl
  | .cons _ t rest, len => by
    simp only [shapeF, shortOf, tooShortF, shortOf_shapeF rest]

theorem shapeF_fixed : ∀ fs : Fields, isVarF fs = false → ∀ p ∈ shapeF fs, p.1 = false
  | .nil, _, _, h => nomatch h
  | .cons _ t rest, h, p, hp => by
    simp only [isVarF, Bool.or_eq_false_iff] at h
    rcases List.mem_cons.mp hp with rfl | hp
    · exact h.1
    · exact shapeF_fixed rest h.2 p hp

theorem parse_fixed (E : Env) (b : Bytes) : ∀ (sh : Shape) (S : List Segment) (O : List Nat) (T : Nat),
    (∀ p ∈ sh, p.1 = false) → T ≤ b.length → T + shapeLen sh < 2 ^ 64 →
    parseShape E b sh ⟨S, O, T⟩ =
      if T + shapeLen sh ≤ b.length then .ok ⟨S ++ segsOf T sh, O, T + shapeLen sh⟩
      else .err (shortOf (b.length - T) sh)
  | [], S, O, T, _, hT, _ => by
    simp only [shapeLen, List.map_nil, List.sum_nil, Nat.add_zero, if_pos hT, parseShape, segsOf,
      List.append_nil]
  | (v, s) :: sh, S, O, T, hv, hT, hs => by
    have h0 : v = false := hv (v, s) (by simp)
    subst h0
    have hl : shapeLen ((false, s) :: sh) = s + shapeLen sh := rfl
    rw [hl] at hs ⊢
    have hus : usizeMod = 2 ^ 64 := rfl
    have hadd : E.add T s = .ok (T + s) := Env.add_eq_ok (by omega)
    simp only [parseShape, ContainerDeserializer.parse, Bool.false_eq_true, if_false, Res.lift_ok,
      Res.ok_bind, hadd]
    rw [if_neg (by omega)]
    by_cases h1 : b.length < T + s
    · rw [if_pos h1, Env.sub_eq_ok hT, if_neg (by omega)]
      simp only [shortOf, if_pos (show b.length - T < s by omega)]
      rfl
    · rw [if_neg h1]
      simp only [Res.ok_bind]
      rw [parse_fixed E b sh _ _ _ (fun p hp => hv p (by simp [hp])) (by omega) (by omega)]
      simp only [shortOf, if_neg (show ¬ b.length - T < s by omega), segsOf, List.append_assoc,
        List.singleton_append, Nat.add_assoc, Nat.sub_sub]

theorem finalize_fixed (E : Env) (len : Nat) : ∀ (sh : Shape) (T total : Nat) (os : List Nat),
    ∃ spans, finalizeSegments E len (segsOf T sh) os total = .ok (spans, total)
  | [], _, _, _ => ⟨[], rfl⟩
  | (_, s) :: sh, T, total, os => by
    obtain ⟨spans, h⟩ := finalize_fixed E len sh (T + s) total os
    refine ⟨T :: (T + s) :: spans, ?_⟩
    simp only [segsOf, finalizeSegments, h, Res.ok_bind]

theorem container_lengths (E : Env) (fs : Fields) (hv : isVarF fs = false) (hf : FitsF fs)
    (hl : fixedLenF fs < 2 ^ 63) (b : Bytes) (hb : b.length < 2 ^ 63)
    (ih : ∀ ps, b = assemble ps → HasShape ps (shapeF fs) → Clean b (decodePieces E fs ps)) :
    (fixedLenF fs < b.length → ((Ty.container fs).impl E).deserialize b =
      .err (.additionalInput b.length (fixedLenF fs))) ∧
    (b.length < fixedLenF fs → ((Ty.container fs).impl E).deserialize b =
      .err (tooShortF fs b.length)) ∧
    (b.length = fixedLenF fs → Clean b (((Ty.container fs).impl E).deserialize b)) := by
  have hd : ((Ty.container fs).impl E).deserialize b = (parseShape E b (shapeF fs) {} >>= fun d =>
      d.finalize E b >>= fun spans => (fs.impls E).initFields b spans 0) := by
    rw [← parseAll_eq E b fs hf]
    rfl
  have hp := parse_fixed E b (shapeF fs) [] [] 0 (shapeF_fixed fs hv) (by omega)
    (by rw [shapeLen_shapeF]; omega)
  rw [shapeLen_shapeF, shortOf_shapeF] at hp
  simp only [Nat.zero_add, List.nil_append, Nat.sub_zero] at hp
  have hp : parseShape E b (shapeF fs) {} = _ := hp
  obtain ⟨spans, hsp⟩ := finalize_fixed E b.length (shapeF fs) 0 (fixedLenF fs) [b.length]
  refine ⟨fun h => ?_, fun h => ?_, fun h => ?_⟩
  · rw [hd, hp, if_pos (by omega), Res.ok_bind]
    simp only [ContainerDeserializer.finalize, List.nil_append, hsp, Res.ok_bind]
    rw [if_neg (by omega), if_pos h]
    rfl
  · rw [hd, hp, if_neg (by omega)]
    rfl
  · have hfin : ContainerDeserializer.finalize E ⟨segsOf 0 (shapeF fs), [], fixedLenF fs⟩ b = .ok spans := by
      simp only [ContainerDeserializer.finalize, List.nil_append, hsp, Res.ok_bind]
      rw [if_neg (by omega), if_neg (by omega)]
    have hp2 := hp
    rw [if_pos (by omega)] at hp2
    obtain ⟨ps, p1, p2, p3, -⟩ := container_sound E b hb (shapeF fs) (by rw [shapeLen_shapeF]; omega)
      spans (by rw [hp2]; exact hfin)
    have hi := initFields_eq E b fs ps _ spans [] 0 rfl p1 (by
      rw [p3, p2]; exact spanOk_assemble ps) rfl
    rw [List.nil_append] at hi
    rw [hd, hp2, Res.ok_bind, hfin, Res.ok_bind, hi]
    exact ih ps p2 p1

/-! ## All types -/

theorem bitvector_clean {n : Nat} (hn : 0 < n) (b : Bytes) (hb : b.length = (n + 7) / 8) :
    Clean b (Bitvector.deserialize n b) := by
  unfold Bitvector.deserialize
  have h8 : bitvectorByteLength n = (n + 7) / 8 := rfl
  rw [if_neg (by omega)]
  simp only [h8]
  rw [if_neg (by omega), if_neg (by omega), Bitvector.default, if_neg (by omega), Res.ok_bind]
  split
  · cases hg : b.getLast? with
    | none =>
      rw [List.getLast?_eq_none_iff] at hg
      rw [hg] at hb
      simp only [List.length_nil] at hb
      omega
    | some x =>
      simp only
      split
      · exact ⟨x, List.mem_of_getLast? hg, rfl⟩
      · trivial
  · trivial

mutual

theorem de_clean (E : Env) : ∀ (t : Ty) (b : Bytes), isVar t = false → Legal t → Fits t →
    b.length < 2 ^ 63 → b.length = fixedLen t → Clean b ((t.impl E).deserialize b)
  | .uint u, b, _, _, _, _, h => by
    show Clean b ((Serializable.uint u).deserialize b)
    simp only [fixedLen] at h
    rw [uint_deserialize, if_neg (by omega), if_neg (by omega)]
    trivial
  | .u256, b, _, _, _, _, h => by
    simp only [fixedLen] at h
    show Clean b (if b.length < 32 then .err (DeError.expectedFurtherInput b.length 32)
      else if b.length > 32 then .err (DeError.additionalInput b.length 32)
      else (slice b 0 32).map fun bytes => BitVec.ofNat 256 (fromLeBytes bytes))
    rw [if_neg (by omega), if_neg (by omega), slice, if_pos (by omega)]
    trivial
  | .bool, b, _, _, _, _, h => by
    simp only [fixedLen] at h
    obtain ⟨x, rfl⟩ := List.length_eq_one_iff.mp h
    show Clean [x] (if x = 0 then .ok false else if x = 1 then .ok true
      else .err (DeError.invalidByte x))
    split
    · trivial
    · split
      · trivial
      · exact ⟨x, List.mem_singleton.mpr rfl, rfl⟩
  | .node, b, _, _, _, _, h => by
    simp only [fixedLen] at h
    show Clean b (if b.length < 32 then .err (DeError.expectedFurtherInput b.length 32)
      else if b.length > 32 then .err (DeError.additionalInput b.length 32)
      else (slice b 0 32 >>= fun bytes => toNode bytes))
    rw [if_neg (by omega), if_neg (by omega), slice, if_pos (by omega), Res.ok_bind, toNode, dif_pos (by
      rw [List.length_take, List.length_drop]; omega)]
    trivial
  | .array t n, b, hv, hl, hf, hb, h => by
    have hv' : (t.impl E).isVariableSize = false := (impl_isVar E t).trans hv
    have hs := impl_sizeHint E t hf.1
    have hpos := fixedLen_pos t hl.2 hv
    have hms : n * fixedLen t < usizeMod := by rw [Nat.mul_comm]; exact Nat.lt_trans hf.2 (by decide)
    have hbn : b.length = n * fixedLen t := by rw [h, fixedLen, Nat.mul_comm]
    show Clean b ((Serializable.array E (t.impl E).toSerializable n).deserialize b)
    simp only [Serializable.array]
    rw [if_neg (Nat.pos_iff_ne_zero.mp hl.1), checkVectorLength_eq hv' hs hms, if_neg (by omega),
      if_neg (by omega), Res.ok_bind]
    obtain ⟨h1, h2⟩ := homogeneous_clean E hv' hs hpos (b := b) (by rw [hbn]; exact Nat.mul_mod_left _ _)
      fun p hp hpl => de_clean E t p hv hl.2 hf.1 (Nat.lt_of_le_of_lt hp.1 hb) hpl
    refine Clean.bind h1 fun vs hvs => ?_
    have h3 := h2 vs hvs
    rw [hbn, Nat.mul_comm] at h3
    rw [dif_pos (Nat.eq_of_mul_eq_mul_left hpos h3).symm]
    trivial
  | .vector t n, b, hv, hl, hf, hb, h => by
    have hv' : (t.impl E).isVariableSize = false := (impl_isVar E t).trans hv
    have hs := impl_sizeHint E t hf.1
    have hpos := fixedLen_pos t hl.2 hv
    have hn : n ≠ 0 := Nat.pos_iff_ne_zero.mp hl.1
    have hms : n * fixedLen t < usizeMod := by rw [Nat.mul_comm]; exact Nat.lt_trans hf.2 (by decide)
    have hbn : b.length = n * fixedLen t := by rw [h, fixedLen, Nat.mul_comm]
    show Clean b ((Serializable.vector E (t.impl E).toSerializable n).deserialize b)
    simp only [Serializable.vector]
    rw [if_neg hn, checkVectorLength_eq hv' hs hms, if_neg (by omega), if_neg (by omega), Res.ok_bind]
    obtain ⟨h1, h2⟩ := homogeneous_clean E hv' hs hpos (b := b) (by rw [hbn]; exact Nat.mul_mod_left _ _)
      fun p hp hpl => de_clean E t p hv hl.2 hf.1 (Nat.lt_of_le_of_lt hp.1 hb) hpl
    refine Clean.bind h1 fun vs hvs => ?_
    have h3 := h2 vs hvs
    rw [hbn, Nat.mul_comm] at h3
    have h4 := (Nat.eq_of_mul_eq_mul_left hpos h3).symm
    simp only [SszVector.tryFromVec, if_neg hn]
    rw [if_neg (by simpa using h4)]
    trivial
  | .list _ _, _, hv, _, _, _, _ => by cases hv
  | .bitvector n, b, _, hl, _, _, h => bitvector_clean hl b h
  | .bitlist _, _, hv, _, _, _, _ => by cases hv
  | .option _, _, hv, _, _, _, _ => by cases hv
  | .newtype t, b, hv, hl, hf, hb, h =>
    Clean.bind (de_clean E t b hv hl hf hb h) fun _ _ => trivial
  | .container fs, b, hv, hl, hf, hb, h => by
    have hv : isVarF fs = false := hv
    have h : b.length = fixedLenF fs := by rw [h, fixedLen, hv]; rfl
    refine (container_lengths E fs hv hf.1 hf.2 b hb fun ps h1 h2 => ?_).2.2 h
    exact pieces_clean E fs ps b hv hl.2.2 hf.1 hb h2 fun p hp => h1 ▸ piece_part hp
  | .union _, _, hv, _, _, _, _ => by cases hv

theorem pieces_clean (E : Env) : ∀ (fs : Fields) (ps : List Piece) (b : Bytes), isVarF fs = false →
    LegalF fs → FitsF fs → b.length < 2 ^ 63 → HasShape ps (shapeF fs) → (∀ p ∈ ps, Within p.2 b) →
    Clean b (decodePieces E fs ps)
  | .nil, _, _, _, _, _, _, _, _ => by
    simp only [decodePieces]
    trivial
  | .cons _ _ _, [], _, _, _, _, _, hs, _ => hs.elim
  | .cons _ t rest, (pv, pb) :: ps, b, hv, hl, hf, hb, hs, hp => by
    simp only [isVarF, Bool.or_eq_false_iff] at hv
    have h1 := hp (pv, pb) (by simp)
    have hs1 : pb.length = fixedLen t := hs.2.1 (hs.1.trans hv.1)
    exact Clean.bind ((de_clean E t pb hv.1 hl.1 hf.1 (Nat.lt_of_le_of_lt h1.1 hb) hs1).mono h1)
      fun _ _ => Clean.bind (pieces_clean E rest ps b hv.2 hl.2 hf.2 hb hs.2.2
        fun q hq => hp q (by simp [hq])) fun _ _ => trivial

end

theorem wrongLength_eq {t : Ty} {s len : Nat} (hs : fixedLen t = s)
    (h : tooShort t len = .expectedFurtherInput len s) :
    wrongLength t len = if s < len then .additionalInput len s else .expectedFurtherInput len s := by
  subst hs
  rw [wrongLength, h]

theorem de_wrong (E : Env) : ∀ (t : Ty) (b : Bytes), isVar t = false → Legal t → Fits t →
    b.length < 2 ^ 63 → b.length ≠ fixedLen t → (t.impl E).deserialize b = .err (wrongLength t b.length)
  | .uint u, b, _, _, _, _, h => by
    show (Serializable.uint u).deserialize b = _
    simp only [fixedLen] at h
    rw [uint_deserialize, wrongLength_eq (t := .uint u) (s := u.bits / 8) rfl rfl]
    by_cases h1 : b.length < u.bits / 8
    · rw [if_pos h1, if_neg (by omega)]
      rfl
    · rw [if_neg h1, if_pos (by omega), if_pos (by omega)]
      rfl
  | .u256, b, _, _, _, _, h => by
    simp only [fixedLen] at h
    show (if b.length < 32 then .err (DeError.expectedFurtherInput b.length 32)
      else if b.length > 32 then .err (DeError.additionalInput b.length 32)
      else (slice b 0 32).map fun bytes => BitVec.ofNat 256 (fromLeBytes bytes)) = _
    rw [wrongLength_eq (t := .u256) (s := 32) rfl rfl]
    by_cases h1 : b.length < 32
    · rw [if_pos h1, if_neg (by omega)]
      rfl
    · rw [if_neg h1, if_pos (by omega), if_pos (by omega)]
      rfl
  | .bool, b, _, _, _, _, h => by
    match b, h with
    | [], _ => rfl
    | [x], h => exact absurd rfl h
    | x :: y :: r, _ =>
      show Res.err (DeError.additionalInput (x :: y :: r).length 1) = _
      rw [wrongLength_eq (t := .bool) (s := 1) rfl rfl, if_pos (by simp)]
      rfl
  | .node, b, _, _, _, _, h => by
    simp only [fixedLen] at h
    show (if b.length < 32 then .err (DeError.expectedFurtherInput b.length 32)
      else if b.length > 32 then .err (DeError.additionalInput b.length 32)
      else (slice b 0 32 >>= fun bytes => toNode bytes)) = _
    rw [wrongLength_eq (t := .node) (s := 32) rfl rfl]
    by_cases h1 : b.length < 32
    · rw [if_pos h1, if_neg (by omega)]
      rfl
    · rw [if_neg h1, if_pos (by omega), if_pos (by omega)]
      rfl
  | .array t n, b, hv, hl, hf, hb, h => by
    have hv' : (t.impl E).isVariableSize = false := (impl_isVar E t).trans hv
    have hs := impl_sizeHint E t hf.1
    have hms : n * fixedLen t < usizeMod := by rw [Nat.mul_comm]; exact Nat.lt_trans hf.2 (by decide)
    show (Serializable.array E (t.impl E).toSerializable n).deserialize b = _
    simp only [Serializable.array]
    rw [if_neg (Nat.pos_iff_ne_zero.mp hl.1), checkVectorLength_eq hv' hs hms]
    rw [wrongLength_eq (t := .array t n) (s := n * fixedLen t) (Nat.mul_comm _ _)
      (congrArg _ (Nat.mul_comm _ _))]
    simp only [fixedLen] at h
    rw [Nat.mul_comm] at h
    by_cases h1 : b.length < n * fixedLen t
    · rw [if_pos h1, if_neg (by omega)]
      rfl
    · rw [if_neg h1, if_pos (by omega), if_pos (by omega)]
      rfl
  | .vector t n, b, hv, hl, hf, hb, h => by
    have hv' : (t.impl E).isVariableSize = false := (impl_isVar E t).trans hv
    have hs := impl_sizeHint E t hf.1
    have hms : n * fixedLen t < usizeMod := by rw [Nat.mul_comm]; exact Nat.lt_trans hf.2 (by decide)
    show (Serializable.vector E (t.impl E).toSerializable n).deserialize b = _
    simp only [Serializable.vector]
    rw [if_neg (Nat.pos_iff_ne_zero.mp hl.1), checkVectorLength_eq hv' hs hms]
    rw [wrongLength_eq (t := .vector t n) (s := n * fixedLen t) (Nat.mul_comm _ _)
      (congrArg _ (Nat.mul_comm _ _))]
    simp only [fixedLen] at h
    rw [Nat.mul_comm] at h
    by_cases h1 : b.length < n * fixedLen t
    · rw [if_pos h1, if_neg (by omega)]
      rfl
    · rw [if_neg h1, if_pos (by omega), if_pos (by omega)]
      rfl
  | .list _ _, _, hv, _, _, _, _ => by cases hv
  | .bitvector n, b, _, hl, _, _, h => by
    have hl : 0 < n := hl
    have h8 : bitvectorByteLength n = (n + 7) / 8 := rfl
    show Bitvector.deserialize n b = _
    simp only [fixedLen] at h
    rw [wrongLength_eq (t := .bitvector n) (s := (n + 7) / 8) rfl rfl]
    simp only [Bitvector.deserialize, h8]
    rw [if_neg (by omega)]
    by_cases h1 : b.length < (n + 7) / 8
    · rw [if_pos h1, if_neg (by omega)]
      rfl
    · rw [if_neg h1, if_pos (by omega), if_pos (by omega)]
      rfl
  | .bitlist _, _, hv, _, _, _, _ => by cases hv
  | .option _, _, hv, _, _, _, _ => by cases hv
  | .newtype t, b, hv, hl, hf, hb, h => by
    have := de_wrong E t b hv hl hf hb h
    show ((t.impl E).deserialize b >>= fun r => .ok r) = _
    rw [this]
    rfl
  | .container fs, b, hv, hl, hf, hb, h => by
    have hv : isVarF fs = false := hv
    have hx : fixedLen (.container fs) = fixedLenF fs := by rw [fixedLen, hv]; rfl
    rw [hx] at h
    obtain ⟨h1, h2, -⟩ := container_lengths E fs hv hf.1 hf.2 b hb fun ps h1 h2 =>
      pieces_clean E fs ps b hv hl.2.2 hf.1 hb h2 fun p hp => h1 ▸ piece_part hp
    unfold wrongLength
    rw [hx]
    rcases Nat.lt_or_gt_of_ne h with h | h
    · rw [h2 h, if_neg (by omega)]
      rfl
    · rw [h1 h, if_pos h]
  | .union _, _, hv, _, _, _, _ => by cases hv

theorem tooShortF_form : ∀ (fs : Fields) (len : Nat),
    ∃ p q, tooShortF fs len = .expectedFurtherInput p q
  | .nil, _ => ⟨_, _, rfl⟩
  | .cons _ t rest, len => by
    unfold tooShortF
    split
    · exact ⟨_, _, rfl⟩
    · exact tooShortF_form rest _

theorem tooShort_form (t : Ty) (len : Nat) : ∃ p q, tooShort t len = .expectedFurtherInput p q := by
  fun_induction tooShort t len with
  | case1 fs len => exact tooShortF_form fs len
  | case2 t len ih => exact ih
  | case3 t len => exact ⟨_, _, rfl⟩

/-! ## Lists -/

theorem list_lengths (E : Env) (t : Ty) (n : Nat) (b : Bytes) (hv : isVar t = false) (hl : Legal t)
    (hf : Fits t) (hb : b.length < 2 ^ 63) :
    (b.length % fixedLen t ≠ 0 → ((Ty.list t n).impl E).deserialize b =
      .err (.additionalInput b.length (b.length - b.length % fixedLen t))) ∧
    (b.length % fixedLen t = 0 →
      (∃ x ∈ b, ((Ty.list t n).impl E).deserialize b = .err (.invalidByte x)) ∨
      (b.length ≤ n * fixedLen t ∧ ∃ v, ((Ty.list t n).impl E).deserialize b = .ok v) ∨
      (n * fixedLen t < b.length ∧ ((Ty.list t n).impl E).deserialize b =
        .err (.invalidInstance (.bounded n (b.length / fixedLen t))))) := by
  have hv' : (t.impl E).isVariableSize = false := (impl_isVar E t).trans hv
  have hs := impl_sizeHint E t hf
  have hpos := fixedLen_pos t hl hv
  have hc : checkListLength E (t.impl E).toSerializable b =
      if b.length % fixedLen t ≠ 0 then
        .err (.additionalInput b.length (b.length - b.length % fixedLen t))
      else .ok () := by
    unfold checkListLength
    rw [hv', if_neg (by simp), hs, Res.lift_ok, Res.ok_bind, usizeRem, if_neg (by omega), Res.ok_bind,
      Env.sub_eq_ok (Nat.mod_le _ _)]
    rfl
  show (_ → (Serializable.list E (t.impl E).toSerializable n).deserialize b = _) ∧ (_ →
    (∃ x ∈ b, (Serializable.list E (t.impl E).toSerializable n).deserialize b = _) ∨
    (_ ∧ ∃ v, (Serializable.list E (t.impl E).toSerializable n).deserialize b = _) ∨
    (_ ∧ (Serializable.list E (t.impl E).toSerializable n).deserialize b = _))
  simp only [Serializable.list]
  rw [hc]
  refine ⟨fun h => by rw [if_pos h]; rfl, fun h => ?_⟩
  obtain ⟨h1, h2⟩ := homogeneous_clean E hv' hs hpos h
    fun p hp hpl => de_clean E t p hv hl hf (Nat.lt_of_le_of_lt hp.1 hb) hpl
  rw [if_neg (by simpa using h), Res.ok_bind]
  cases hr : deserializeHomogeneousComposite E (t.impl E).toSerializable b with
  | panic => rw [hr] at h1; exact h1.elim
  | err e =>
    rw [hr] at h1
    obtain ⟨x, hx, rfl⟩ := h1
    exact .inl ⟨x, hx, rfl⟩
  | ok vs =>
    have h3 := h2 vs hr
    have h4 : b.length / fixedLen t = vs.length := by rw [h3]; exact Nat.mul_div_cancel_left _ hpos
    rw [Res.ok_bind]
    by_cases hn : vs.length > n
    · refine .inr (.inr ⟨?_, ?_⟩)
      · rw [h3, Nat.mul_comm]
        exact Nat.mul_lt_mul_of_pos_left hn hpos
      · rw [if_pos hn, h4]
        rfl
    · refine .inr (.inl ⟨?_, vs, ?_⟩)
      · rw [h3, Nat.mul_comm]
        exact Nat.mul_le_mul_right _ (by omega)
      · rw [if_neg hn]
        simp only [SszList.tryFromVec, if_neg hn]
        rfl

end Ssz
