import Verif.Proofs.DecodeSound
import Verif.Spec.Errors

/-!
# Decoding errors are truthful
-/

namespace Ssz

open Spec

/-- Every error of the result is true of the input. -/
def Errs {α : Type} (b : Bytes) (r : Res DeError α) : Prop := ∀ e, r = .err e → Truthful b e

namespace Errs

variable {α β : Type} {b : Bytes}

theorem ok (a : α) : Errs b (.ok a : Res DeError α) := fun _ h => nomatch h

theorem panic : Errs b (.panic : Res DeError α) := fun _ h => nomatch h

theorem err {e : DeError} (h : Truthful b e) : Errs b (.err e : Res DeError α) := fun _ h' => by
  injection h' with h'
  exact h' ▸ h

theorem bind {x : Res DeError α} {f : α → Res DeError β} (h : Errs b x)
    (hf : ∀ a, x = .ok a → Errs b (f a)) : Errs b (x >>= f) := fun e he => by
  rcases Res.bind_eq_err.mp he with h1 | ⟨a, h1, h2⟩
  · exact h e h1
  · exact hf a h1 e h2

theorem map {x : Res DeError α} {f : α → β} (h : Errs b x) : Errs b (x.map f) := fun e he =>
  h e (Res.map_eq_err.mp he)

theorem lift {x : Calc α} : Errs b (x.lift : Res DeError α) := fun e he => by
  cases x with
  | ok _ => cases he
  | err e => exact e.elim
  | panic => cases he

theorem slice {γ : Type} {xs : List γ} {i j : Nat} : Errs b (slice xs i j : Res DeError (List γ)) := by
  unfold Ssz.slice
  split
  · exact ok _
  · exact panic

end Errs

/-- All bytes of `p` are bytes of `b`, and `p` is not longer. -/
def Within (p b : Bytes) : Prop := p.length ≤ b.length ∧ ∀ x ∈ p, x ∈ b

theorem part_infix {p b : Bytes} (h : p <:+: b) : Within p b :=
  ⟨h.length_le, fun _ hx => h.subset hx⟩

theorem part_slice {b p : Bytes} {i j : Nat} (h : (slice b i j : Res DeError Bytes) = .ok p) :
    Within p b := by
  rw [slice_eq_ok] at h
  obtain ⟨_, _, rfl⟩ := h
  exact part_infix ((List.take_prefix _ _).isInfix.trans (List.drop_suffix _ _).isInfix)

theorem truthful_mono {p b : Bytes} (h : Within p b) : ∀ {e : DeError}, Truthful p e → Truthful b e
  | .expectedFurtherInput _ _, he => ⟨Nat.le_trans he.1 h.1, he.2⟩
  | .additionalInput _ _, he => ⟨Nat.le_trans he.1 h.1, he.2⟩
  | .invalidByte _, he => h.2 _ he
  | .invalidInstance (.exact _ _), he => he
  | .invalidInstance (.bounded _ _), he => he
  | .invalidType _, he => he
  | .invalidOffsetsLength _, he => ⟨Nat.le_trans he.1 h.1, he.2⟩
  | .offsetNotIncreasing _ _, he => he
  | .missingOffset, he => he
  | .noMatchingVariant, he => he

theorem Errs.mono {α : Type} {p b : Bytes} {r : Res DeError α} (h : Within p b) (hr : Errs p r) :
    Errs b r := fun e he => truthful_mono h (hr e he)

/-! ## Collections -/

theorem Errs.mapList {α β : Type} {b : Bytes} {f : α → Res DeError β} :
    ∀ {xs : List α}, (∀ x ∈ xs, Errs b (f x)) → Errs b (Res.mapList f xs)
  | [], _ => Errs.ok _
  | x :: xs, h => by
    have ih := Errs.mapList (f := f) fun y hy => h y (List.mem_cons_of_mem x hy)
    have h0 := h x (by simp)
    unfold Res.mapList
    split
    · split
      · exact Errs.ok _
      · rename_i e he
        exact Errs.err (ih e he)
      · exact Errs.panic
    · rename_i e he
      exact Errs.err (h0 e he)
    · exact Errs.panic

theorem u32_errs {b p : Bytes} (h : p.length = 4) : Errs b (deserializeU32 p) := by
  rw [deserializeU32_ok h]
  exact Errs.ok _

theorem chunk_part {s : Nat} (hs : 0 < s) {b c : Bytes} (hb : b.length % s = 0)
    (hc : c ∈ chunksExact s b) : Within c b := by
  obtain ⟨c1, _⟩ := chunksExact_spec hs b hb
  refine part_infix ?_
  rw [← c1]
  exact List.infix_of_mem_flatten hc

theorem spans_errs {α : Type} (T : Serializable α) (b : Bytes)
    (hT : ∀ p, Within p b → Errs p (T.deserialize p)) :
    ∀ os : List Nat, Errs b (deserializeSpans T b os)
  | [] => Errs.ok _
  | [_] => Errs.ok _
  | o :: n :: rest => by
    have ih := spans_errs T b hT (n :: rest)
    simp only [deserializeSpans]
    split
    · rename_i h
      exact Errs.err h
    · refine Errs.bind Errs.slice fun p hp => ?_
      have := part_slice hp
      refine Errs.bind ((hT p this).mono this) fun _ _ => Errs.bind ih fun _ _ => Errs.ok _

theorem table_errs {α : Type} (T : Serializable α) (b : Bytes)
    (hT : ∀ p, Within p b → Errs p (T.deserialize p)) :
    Errs b (deserializeVariableHomogeneousComposite T b) := by
  unfold deserializeVariableHomogeneousComposite
  split
  · exact Errs.ok _
  · split
    · rename_i hg
      refine Errs.err ⟨Nat.le_refl _, ?_⟩
      unfold getRange at hg
      split at hg
      · cases hg
      · omega
    · rename_i w hw
      obtain ⟨_, h4, hwl, hd⟩ := drop_eq_getRange hw
      rw [deserializeU32_ok (by omega)]
      simp only [Res.ok_bind]
      split
      · rename_i h
        exact Errs.err ⟨Nat.le_refl _, h⟩
      · split
        · rename_i h1 h2
          exact Errs.err ⟨by omega, h2⟩
        · rename_i h1 h2
          refine Errs.bind Errs.slice fun head hh => ?_
          rw [slice_eq_ok] at hh
          obtain ⟨_, _, rfl⟩ := hh
          have hl : ((b.drop 0).take (fromLeBytes w - 0)).length % 4 = 0 := by
            rw [List.length_take]
            simp only [List.drop_zero, Nat.sub_zero]
            rw [Nat.min_eq_left (by omega)]
            omega
          refine Errs.bind (Errs.mapList fun c hc => u32_errs ((chunksExact_spec (s := 4) (by omega) _ hl).2 c hc))
            fun _ _ => spans_errs T b hT _

theorem homogeneous_errs {α : Type} (E : Env) {T : Serializable α} {v : Bool} {s : Nat}
    (hv : T.isVariableSize = v) (hs : T.sizeHint = .ok s) (hpos : v = false → 0 < s) {b : Bytes}
    (hmod : v = false → b.length % s = 0)
    (hT : ∀ p, Within p b → Errs p (T.deserialize p)) :
    Errs b (deserializeHomogeneousComposite E T b) := by
  unfold deserializeHomogeneousComposite
  rw [hv]
  cases v with
  | true =>
    rw [if_pos rfl]
    exact table_errs T b hT
  | false =>
    rw [if_neg (by simp)]
    unfold deserializeFixedHomogeneousComposite
    rw [hs]
    simp only [Res.lift_ok, Res.ok_bind]
    have := hpos rfl
    rw [if_neg (by omega)]
    refine Errs.bind Errs.lift fun _ _ => Errs.mapList fun c hc => ?_
    have := chunk_part this (hmod rfl) hc
    exact (hT c this).mono this

theorem checkVectorLength_errs {α : Type} {E : Env} {T : Serializable α} {s n : Nat}
    {b : Bytes} (hs : T.sizeHint = .ok s) (hn : n * s < usizeMod) :
    Errs b (checkVectorLength E T n b) := by
  unfold checkVectorLength
  split
  · exact Errs.ok _
  · rw [hs, Res.lift_ok, Res.ok_bind, Env.mul_eq_ok hn, Res.lift_ok, Res.ok_bind]
    split
    · rename_i h
      exact Errs.err ⟨Nat.le_refl _, h⟩
    · split
      · rename_i h
        exact Errs.err ⟨Nat.le_refl _, h⟩
      · exact Errs.ok _

theorem checkListLength_errs {α : Type} {E : Env} {T : Serializable α} {s : Nat}
    {b : Bytes} (hs : T.sizeHint = .ok s) : Errs b (checkListLength E T b) := by
  unfold checkListLength
  split
  · exact Errs.ok _
  · rw [hs, Res.lift_ok, Res.ok_bind]
    unfold usizeRem
    split
    · exact Errs.panic
    · simp only [Res.ok_bind]
      split
      · rename_i h1 h
        have := Nat.mod_le b.length s
        rw [Env.sub_eq_ok this]
        exact Errs.err ⟨Nat.le_refl _, by omega⟩
      · exact Errs.ok _

/-! ## Structs -/

theorem Env.sub_debug {E : Env} (h : E.debug = true) {a b : Nat} (hab : a < b) :
    E.sub a b = .panic := by
  unfold Env.sub
  rw [if_neg (by omega), if_pos h]

theorem checkOffset_errs {E : Env} {b : Bytes} {len next : Nat} {prev : Option Nat}
    (h : E.debug = true ∨ prev = none) : Errs b (checkOffset E len prev next) := by
  unfold checkOffset
  cases prev with
  | none => exact Errs.ok _
  | some o =>
    have hE : E.debug = true := h.resolve_right (by simp)
    simp only
    split
    · rename_i h1
      exact Errs.err h1
    · split
      · rename_i h2
        rw [Env.sub_debug hE h2]
        exact Errs.panic
      · split
        · rename_i h3
          rw [Env.sub_debug hE h3]
          exact Errs.panic
        · exact Errs.ok _

theorem parseShape_errs (E : Env) (b : Bytes) (hlen : b.length < 2 ^ 63) :
    ∀ (sh : Shape) (S : List Segment) (O : List Nat) (T : Nat), T ≤ b.length →
      T + shapeLen sh < 2 ^ 64 →
      (E.debug = true ∨ O.length + sh.countP (·.1) ≤ 1) →
      Errs b (parseShape E b sh ⟨S, O, T⟩)
  | [], S, O, T, _, _, _ => by
    simp only [parseShape]
    exact Errs.ok _
  | (true, s) :: sh, S, O, T, hT, hs, hd => by
    simp only [shapeLen, List.map_cons, List.sum_cons, if_true] at hs
    simp only [parseShape, ContainerDeserializer.parse, if_true]
    rw [Env.sub_eq_ok hT]
    simp only [Res.lift_ok, Res.ok_bind]
    cases hg : getRange b T (T + 4) with
    | none =>
      refine Errs.err ⟨by omega, ?_⟩
      unfold getRange at hg
      split at hg
      · cases hg
      · omega
    | some w =>
      obtain ⟨_, g2, g3, _⟩ := drop_eq_getRange hg
      simp only
      rw [deserializeU32_ok (by omega)]
      simp only [Res.ok_bind]
      refine Errs.bind (Errs.bind (checkOffset_errs ?_) fun _ _ => Errs.ok _) fun d hd' => ?_
      · refine hd.imp id fun hd => ?_
        simp only [List.countP_cons, if_true] at hd
        have : O = [] := List.eq_nil_of_length_eq_zero (by omega)
        rw [this]
        rfl
      · obtain ⟨_, _, h2⟩ := Res.bind_eq_ok.mp hd'
        injection h2 with h2
        subst h2
        refine parseShape_errs E b hlen sh _ _ _ g2 (by simp only [shapeLen]; omega) (hd.imp id fun hd => ?_)
        simp only [List.countP_cons, if_true] at hd
        simp only [List.length_append, List.length_singleton]
        omega
  | (false, s) :: sh, S, O, T, hT, hs, hd => by
    simp only [shapeLen, List.map_cons, List.sum_cons, Bool.false_eq_true, if_false] at hs
    have hus : usizeMod = 2 ^ 64 := rfl
    have hadd : E.add T s = .ok (T + s) := Env.add_eq_ok (by omega)
    simp only [parseShape, ContainerDeserializer.parse, Bool.false_eq_true, if_false,
      Res.lift_ok, Res.ok_bind, hadd]
    rw [if_neg (by omega)]
    split
    · rw [Env.sub_eq_ok hT]
      exact Errs.err ⟨by omega, by omega⟩
    · simp only [Res.ok_bind]
      refine parseShape_errs E b hlen sh _ _ _ (by omega) (by simp only [shapeLen]; omega) ?_
      simpa using hd

theorem finalizeSegments_errs (E : Env) (b : Bytes) (len : Nat) (hlen : len ≤ b.length) :
    ∀ (its : List Item) (T total : Nat) (os : List Nat), os = offsI its ++ [len] →
      Errs b (finalizeSegments E len (segsI T its) os total)
  | [], _, _, _, _ => Errs.ok _
  | .fix _ :: its, T, total, os, h => by
    simp only [segsI, finalizeSegments]
    exact Errs.bind (finalizeSegments_errs E b len hlen its _ _ _ h) fun _ _ => Errs.ok _
  | .off o :: its, T, total, os, h => by
    subst h
    have hn : ∃ n r, offsI its ++ [len] = n :: r := by
      cases h : offsI its <;> simp
    obtain ⟨n, r, hr⟩ := hn
    simp only [segsI, finalizeSegments, offsI, List.cons_append, hr, List.getElem?_cons_succ,
      List.getElem?_cons_zero, List.drop_succ_cons, List.drop_zero]
    split
    · rename_i h1
      exact Errs.err ⟨hlen, h1⟩
    · split
      · rename_i h1
        exact Errs.err ⟨hlen, h1⟩
      · refine Errs.bind Errs.lift fun _ _ => Errs.bind Errs.lift fun _ _ =>
          Errs.bind (finalizeSegments_errs E b len hlen its _ _ _ hr.symm) fun _ _ => Errs.ok _

theorem mem_heads {p : Bytes} {x : Byte} (hx : x ∈ p) : ∀ {ps : List Piece} (off : Nat),
    (false, p) ∈ ps → x ∈ heads off ps
  | (true, q) :: ps, off, h => by
    rcases List.mem_cons.mp h with h | h
    · cases h
    · exact List.mem_append_right _ (mem_heads hx _ h)
  | (false, q) :: ps, off, h => by
    rcases List.mem_cons.mp h with h | h
    · injection h with _ h
      exact List.mem_append_left _ (h ▸ hx)
    · exact List.mem_append_right _ (mem_heads hx _ h)

theorem piece_part {ps : List Piece} {p : Piece} (hp : p ∈ ps) : Within p.2 (assemble ps) := by
  refine ⟨piece_length_le hp, fun x hx => ?_⟩
  obtain ⟨v, q⟩ := p
  cases v with
  | true => exact List.mem_append_right _ (List.mem_flatMap.mpr ⟨_, hp, hx⟩)
  | false => exact List.mem_append_left _ (mem_heads hx _ hp)

theorem container_errs (E : Env) (fs : Fields) (hf : FitsF fs) (hl : fixedLenF fs < 2 ^ 64)
    (b : Bytes) (hb : b.length < 2 ^ 63) (hd : E.debug = true ∨ countVarF fs ≤ 1)
    (ih : ∀ ps, b = assemble ps → HasShape ps (shapeF fs) → Errs b (decodePieces E fs ps)) :
    Errs b (((Ty.container fs).impl E).deserialize b) := by
  show Errs b ((fs.impls E).parseAll E b {} >>= fun d => d.finalize E b >>=
    fun spans => (fs.impls E).initFields b spans 0)
  rw [parseAll_eq E _ fs hf]
  have hsl := shapeLen_shapeF fs
  refine Errs.bind (parseShape_errs E b hb _ [] [] 0 (by omega) (by omega) ?_) fun d h1 =>
    Errs.bind ?_ fun spans h2 => ?_
  · rw [shapeF_countP]
    simpa using hd
  · obtain ⟨its, i1, i2, i3, i4, i5, i6, i7⟩ := parseShape_sound E b hb _ [] [] 0 d (by omega)
      (by omega) h1
    unfold ContainerDeserializer.finalize
    refine Errs.bind ?_ fun r _ => ?_
    · rw [i5, i6, List.nil_append, List.nil_append]
      exact finalizeSegments_errs E b b.length (Nat.le_refl _) its _ _ _ rfl
    · obtain ⟨sp, total⟩ := r
      simp only
      split
      · rename_i h
        exact Errs.err ⟨Nat.le_refl _, h⟩
      · split
        · rename_i h
          exact Errs.err ⟨Nat.le_refl _, h⟩
        · exact Errs.ok _
  · obtain ⟨ps, p1, p2, p3, -⟩ := container_sound E b hb (shapeF fs) (by omega) spans
      (by rw [h1]; exact h2)
    have := initFields_eq E b fs ps _ spans [] 0 rfl p1 (by
      rw [p3, p2]; exact spanOk_assemble ps) rfl
    rw [List.nil_append] at this
    rw [this]
    exact ih ps p2 p1

/-! ## All types -/

theorem uint_errs (u : UintTy) (b : Bytes) : Errs b ((Serializable.uint u).deserialize b) := by
  rw [uint_deserialize]
  split
  · rename_i h
    exact Errs.err ⟨Nat.le_refl _, h⟩
  · split
    · rename_i h
      exact Errs.err ⟨Nat.le_refl _, h⟩
    · exact Errs.ok _

theorem toNode_errs (b p : Bytes) : Errs b (toNode p : Res DeError Node) := by
  unfold toNode
  split
  · exact Errs.ok _
  · exact Errs.panic

theorem bitlist_errs (E : Env) (n : Nat) (b : Bytes) : Errs b (Bitlist.deserialize E n b) := by
  unfold Bitlist.deserialize
  cases hb : b.getLast? with
  | none => exact Errs.err ⟨Nat.zero_le _, by decide⟩
  | some x =>
    have hx : x ∈ b := List.mem_of_getLast? hb
    simp only
    refine Errs.bind Errs.lift fun m _ => ?_
    split
    · rename_i h
      exact Errs.err ⟨Nat.le_refl _, h⟩
    · split
      · exact Errs.err hx
      · refine Errs.bind Errs.lift fun _ _ => Errs.bind Errs.lift fun _ _ => ?_
        split
        · rename_i h
          exact Errs.err h
        · exact Errs.bind Errs.slice fun _ _ => Errs.ok _

theorem bitvector_errs {n : Nat} (hn : 0 < n) (b : Bytes) : Errs b (Bitvector.deserialize n b) := by
  unfold Bitvector.deserialize
  rw [if_neg (by omega)]
  simp only
  split
  · rename_i h
    exact Errs.err ⟨Nat.le_refl _, h⟩
  · split
    · rename_i h
      exact Errs.err ⟨Nat.le_refl _, h⟩
    · rw [Bitvector.default, if_neg (by omega), Res.ok_bind]
      split
      · cases hb : b.getLast? with
        | none => exact Errs.panic
        | some x =>
          simp only
          split
          · exact Errs.err (List.mem_of_getLast? hb)
          · exact Errs.ok _
      · exact Errs.ok _

theorem tail_part (x : Byte) (r : Bytes) : Within r (x :: r) :=
  ⟨Nat.le_succ _, fun _ h => List.mem_cons_of_mem _ h⟩

mutual

theorem de_errs (E : Env) : ∀ (t : Ty) (b : Bytes), Legal t → Fits t → b.length < 2 ^ 63 →
    (E.debug = true ∨ OneVarField t) → Errs b ((t.impl E).deserialize b)
  | .uint u, b, _, _, _, _ => uint_errs u b
  | .u256, b, _, _, _, _ => by
    show Errs b (if b.length < 32 then .err (DeError.expectedFurtherInput b.length 32)
      else if b.length > 32 then .err (DeError.additionalInput b.length 32)
      else (slice b 0 32).map fun bytes => BitVec.ofNat 256 (fromLeBytes bytes))
    split
    · rename_i h
      exact Errs.err ⟨Nat.le_refl _, h⟩
    · split
      · rename_i h
        exact Errs.err ⟨Nat.le_refl _, h⟩
      · exact Errs.slice.map
  | .bool, b, _, _, _, _ => by
    match b with
    | [] => exact Errs.err ⟨Nat.le_refl _, by decide⟩
    | [x] =>
      show Errs [x] (if x = 0 then .ok false else if x = 1 then .ok true
        else .err (DeError.invalidByte x))
      split
      · exact Errs.ok _
      · split
        · exact Errs.ok _
        · exact Errs.err (List.mem_singleton.mpr rfl)
    | x :: y :: r => exact Errs.err ⟨Nat.le_refl _, by simp⟩
  | .node, b, _, _, _, _ => by
    show Errs b (if b.length < 32 then .err (DeError.expectedFurtherInput b.length 32)
      else if b.length > 32 then .err (DeError.additionalInput b.length 32)
      else (slice b 0 32 >>= fun bytes => toNode bytes))
    split
    · rename_i h
      exact Errs.err ⟨Nat.le_refl _, h⟩
    · split
      · rename_i h
        exact Errs.err ⟨Nat.le_refl _, h⟩
      · exact Errs.bind Errs.slice fun _ _ => toNode_errs _ _
  | .array t n, b, hl, hf, hb, hd => by
    have hv := impl_isVar E t
    have hs := impl_sizeHint E t hf.1
    have hms : n * fixedLen t < usizeMod := by rw [Nat.mul_comm]; exact Nat.lt_trans hf.2 (by decide)
    show Errs b ((Serializable.array E (t.impl E).toSerializable n).deserialize b)
    simp only [Serializable.array]
    rw [if_neg (Nat.pos_iff_ne_zero.mp hl.1)]
    refine Errs.bind (checkVectorLength_errs hs hms) fun _ h1 => Errs.bind ?_ fun vs _ => ?_
    · refine homogeneous_errs E hv hs (fixedLen_pos t hl.2) (fun h => ?_) fun p hp =>
        de_errs E t p hl.2 hf.1 (Nat.lt_of_le_of_lt hp.1 hb) hd
      rw [checkVectorLength_sound hv hs hms h1 h]
      exact Nat.mul_mod_left _ _
    · split
      · exact Errs.ok _
      · rename_i h
        exact Errs.err h
  | .vector t n, b, hl, hf, hb, hd => by
    have hv := impl_isVar E t
    have hs := impl_sizeHint E t hf.1
    have hn : n ≠ 0 := Nat.pos_iff_ne_zero.mp hl.1
    have hms : n * fixedLen t < usizeMod := by rw [Nat.mul_comm]; exact Nat.lt_trans hf.2 (by decide)
    show Errs b ((Serializable.vector E (t.impl E).toSerializable n).deserialize b)
    simp only [Serializable.vector]
    rw [if_neg hn]
    refine Errs.bind (checkVectorLength_errs hs hms) fun _ h1 => Errs.bind ?_ fun vs _ => ?_
    · refine homogeneous_errs E hv hs (fixedLen_pos t hl.2) (fun h => ?_) fun p hp =>
        de_errs E t p hl.2 hf.1 (Nat.lt_of_le_of_lt hp.1 hb) hd
      rw [checkVectorLength_sound hv hs hms h1 h]
      exact Nat.mul_mod_left _ _
    · simp only [SszVector.tryFromVec, if_neg hn]
      by_cases h : vs.length = n
      · rw [if_neg (by simpa using h)]
        exact Errs.ok _
      · rw [if_pos h]
        exact Errs.err h
  | .list t n, b, hl, hf, hb, hd => by
    have hv := impl_isVar E t
    have hs := impl_sizeHint E t hf
    show Errs b ((Serializable.list E (t.impl E).toSerializable n).deserialize b)
    simp only [Serializable.list]
    refine Errs.bind (checkListLength_errs hs) fun _ h1 => Errs.bind ?_ fun vs _ => ?_
    · exact homogeneous_errs E hv hs (fixedLen_pos t hl) (checkListLength_sound hv hs h1)
        fun p hp => de_errs E t p hl hf (Nat.lt_of_le_of_lt hp.1 hb) hd
    · split
      · rename_i h
        exact Errs.err h
      · rename_i h
        simp only [SszList.tryFromVec, if_neg h]
        exact Errs.ok _
  | .bitvector n, b, hl, _, _, _ => bitvector_errs hl b
  | .bitlist n, b, _, _, _, _ => bitlist_errs E n b
  | .option t, b, hl, hf, hb, hd => by
    match b, hb with
    | [], _ => exact Errs.err ⟨Nat.le_refl _, by decide⟩
    | x :: r, hb =>
      show Errs (x :: r) (if x = 0 then
          if (x :: r).length ≠ 1 then .err (DeError.additionalInput (x :: r).length 1) else .ok none
        else if x = 1 then ((t.impl E).deserialize r >>= fun inner => .ok (some inner))
        else .err (.invalidByte x))
      split
      · split
        · rename_i h
          refine Errs.err ⟨Nat.le_refl _, ?_⟩
          simp only [List.length_cons] at h ⊢
          omega
        · exact Errs.ok _
      · split
        · exact Errs.bind ((de_errs E t r hl hf (by simp only [List.length_cons] at hb; omega) hd).mono
            (tail_part x r)) fun _ _ => Errs.ok _
        · exact Errs.err (List.mem_cons_self ..)
  | .newtype t, b, hl, hf, hb, hd =>
    Errs.bind (de_errs E t b hl hf hb hd) fun _ _ => Errs.ok _
  | .container fs, b, hl, hf, hb, hd => by
    refine container_errs E fs hf.1 (Nat.lt_trans hf.2 (by decide)) b hb (hd.imp id (·.1)) ?_
    intro ps h1 _
    exact pieces_errs E fs ps b hl.2.2 hf.1 hb (hd.imp id (·.2)) fun p hp => h1 ▸ piece_part hp
  | .union vs, b, hl, hf, hb, hd => by
    match b, hb with
    | [], _ => exact Errs.err ⟨Nat.le_refl _, by decide⟩
    | x :: r, hb => exact deV_errs E vs 0 x r hl.2 hf hb hd

theorem pieces_errs (E : Env) : ∀ (fs : Fields) (ps : List Piece) (b : Bytes), LegalF fs → FitsF fs →
    b.length < 2 ^ 63 → (E.debug = true ∨ OneVarFieldF fs) → (∀ p ∈ ps, Within p.2 b) →
    Errs b (decodePieces E fs ps)
  | .nil, _, _, _, _, _, _, _ => Errs.ok _
  | .cons _ _ _, [], _, _, _, _, _, _ => Errs.panic
  | .cons _ t rest, p :: ps, b, hl, hf, hb, hd, hp => by
    have h1 := hp p (by simp)
    exact Errs.bind ((de_errs E t p.2 hl.1 hf.1 (Nat.lt_of_le_of_lt h1.1 hb) (hd.imp id (·.1))).mono h1)
      fun _ _ => Errs.bind (pieces_errs E rest ps b hl.2 hf.2 hb (hd.imp id (·.2))
        fun q hq => hp q (by simp [hq])) fun _ _ => Errs.ok _

theorem deV_errs (E : Env) : ∀ (vs : Variants) (i : Nat) (x : Byte) (r : Bytes), LegalV vs →
    FitsV vs → (x :: r).length < 2 ^ 63 → (E.debug = true ∨ OneVarFieldV vs) →
    Errs (x :: r) ((vs.impls E).deserialize x r (x :: r) i)
  | .nil, _, x, r, _, _, _, _ => Errs.err (List.mem_cons_self ..)
  | .unit vs, i, x, r, hl, hf, hb, hd => by
    show Errs (x :: r) (if x = 0 then
        if (x :: r).length ≠ 1 then .err (.additionalInput (x :: r).length 1) else .ok (Sum.inl ())
      else ((vs.impls E).deserialize x r (x :: r) (i + 1)).map Sum.inr)
    split
    · split
      · rename_i h
        refine Errs.err ⟨Nat.le_refl _, ?_⟩
        simp only [List.length_cons] at h ⊢
        omega
      · exact Errs.ok _
    · exact (deV_errs E vs (i + 1) x r hl hf hb hd).map
  | .data t vs, i, x, r, hl, hf, hb, hd => by
    show Errs (x :: r) (if x = BitVec.ofNat 8 i then ((t.impl E).deserialize r).map Sum.inl
      else ((vs.impls E).deserialize x r (x :: r) (i + 1)).map Sum.inr)
    split
    · exact ((de_errs E t r hl.1 hf.1 (by simp only [List.length_cons] at hb; omega)
        (hd.imp id (·.1))).mono (tail_part x r)).map
    · exact (deV_errs E vs (i + 1) x r hl.2 hf.2 hb (hd.imp id (·.2))).map

end

/-! ## Serialization -/

/-- Every error of the computation is truthful. -/
def SErrs {α : Type} (m : BufM SerError α) : Prop :=
  ∀ buf e, (m buf).2 = .err e → TruthfulSer e

/-- Every error of the result is truthful. -/
def RErrs {α : Type} (r : Res SerError α) : Prop := ∀ e, r = .err e → TruthfulSer e

namespace SErrs

variable {α β : Type}

theorem bind {x : BufM SerError α} {f : α → BufM SerError β} (h : SErrs x) (hf : ∀ a, SErrs (f a)) :
    SErrs (x >>= f) := fun buf e he => by
  change (BufM.bind x f buf).2 = _ at he
  unfold BufM.bind at he
  split at he
  · exact hf _ _ e he
  · rename_i h1
    simp only [Res.err.injEq] at he
    subst he
    exact h buf _ (by rw [h1])
  · cases he

theorem ofRes {r : Res SerError α} (h : RErrs r) : SErrs (BufM.ofRes r) := fun _ e he => h e he

theorem append (b : Bytes) : SErrs (BufM.append b : BufM SerError Unit) := fun _ _ h => nomatch h

theorem ok (a : α) : SErrs (BufM.ofRes (.ok a) : BufM SerError α) := fun _ _ h => nomatch h

end SErrs

namespace RErrs

variable {α β : Type}

theorem ok (a : α) : RErrs (.ok a : Res SerError α) := fun _ h => nomatch h

theorem err {e : SerError} (h : TruthfulSer e) : RErrs (.err e : Res SerError α) := fun _ h' => by
  injection h' with h'
  exact h' ▸ h

theorem bind {x : Res SerError α} {f : α → Res SerError β} (h : RErrs x) (hf : ∀ a, RErrs (f a)) :
    RErrs (x >>= f) := fun e he => by
  rcases Res.bind_eq_err.mp he with h1 | ⟨a, _, h2⟩
  · exact h e h1
  · exact hf a e h2

theorem lift {x : Calc α} : RErrs (x.lift : Res SerError α) := fun e he => by
  cases x with
  | ok _ => cases he
  | err e => exact e.elim
  | panic => cases he

end RErrs

theorem uint_serrs (u : UintTy) (v : BitVec u.bits) : SErrs ((Serializable.uint u).serialize v) :=
  SErrs.bind (SErrs.append _) fun _ => SErrs.ok _

theorem withCapacity_rerrs (n : Nat) : RErrs (withCapacity n) := by
  unfold withCapacity
  split
  · exact RErrs.ok _
  · exact fun _ h => nomatch h

theorem writeParts_serrs (E : Env) : ∀ (parts : List Part) (running : Nat),
    SErrs (writeParts E running parts)
  | [], _ => fun _ _ h => nomatch h
  | .fixed _ :: rest, running =>
    SErrs.bind (SErrs.append _) fun _ => writeParts_serrs E rest running
  | .offset _ :: rest, _ =>
    SErrs.bind (uint_serrs .u32 _) fun _ => SErrs.bind (SErrs.ofRes RErrs.lift) fun _ =>
      SErrs.bind (SErrs.ofRes RErrs.lift) fun _ => writeParts_serrs E rest _

theorem serializer_serrs (E : Env) (s : Serializer) : SErrs (s.serialize E) := by
  unfold Serializer.serialize
  simp only
  split
  · rename_i h
    exact SErrs.ofRes (RErrs.err h)
  · exact SErrs.bind (writeParts_serrs E _ _) fun _ => SErrs.bind (SErrs.append _) fun _ => SErrs.ok _

theorem withElement_rerrs {α : Type} {T : Serializable α} {x : α} (h : SErrs (T.serialize x))
    (s : Serializer) : RErrs (s.withElement T x) := by
  unfold Serializer.withElement
  refine RErrs.bind RErrs.lift fun c => RErrs.bind (withCapacity_rerrs c) fun _ => ?_
  split
  · rename_i e he
    exact RErrs.err (h [] e (by rw [he]))
  · exact fun _ h => nomatch h
  · split <;> exact RErrs.ok _

theorem withElements_rerrs {α : Type} {T : Serializable α} : ∀ {xs : List α} (s : Serializer),
    (∀ x ∈ xs, SErrs (T.serialize x)) → RErrs (s.withElements T xs)
  | [], _, _ => RErrs.ok _
  | x :: xs, s, h => by
    unfold Serializer.withElements
    exact RErrs.bind (withElement_rerrs (h x (by simp)) s) fun s' =>
      withElements_rerrs s' fun y hy => h y (by simp [hy])

mutual

theorem ser_errs (E : Env) : ∀ (t : Ty) (v : t.Val), Legal t → SErrs ((t.impl E).serialize v)
  | .uint u, v, _ => uint_serrs u v
  | .u256, _, _ => SErrs.bind (SErrs.append _) fun _ => SErrs.ok _
  | .bool, _, _ => SErrs.bind (SErrs.append _) fun _ => SErrs.ok _
  | .node, _, _ => SErrs.bind (SErrs.append _) fun _ => SErrs.ok _
  | .array t n, v, hl => by
    show SErrs ((Serializable.array E (t.impl E).toSerializable n).serialize v)
    simp only [Serializable.array]
    rw [if_neg (Nat.pos_iff_ne_zero.mp hl.1)]
    exact SErrs.bind (SErrs.ofRes (withElements_rerrs _ fun x _ => ser_errs E t x hl.2))
      fun s => serializer_serrs E s
  | .vector t n, v, hl => by
    show SErrs ((Serializable.vector E (t.impl E).toSerializable n).serialize v)
    simp only [Serializable.vector]
    rw [if_neg (Nat.pos_iff_ne_zero.mp hl.1)]
    exact SErrs.bind (SErrs.ofRes (withElements_rerrs _ fun x _ => ser_errs E t x hl.2))
      fun s => serializer_serrs E s
  | .list t n, v, hl => by
    show SErrs ((Serializable.list E (t.impl E).toSerializable n).serialize v)
    simp only [Serializable.list]
    split
    · rename_i h
      exact SErrs.ofRes (RErrs.err h)
    · exact SErrs.bind (SErrs.ofRes (withElements_rerrs _ fun x _ => ser_errs E t x hl))
        fun s => serializer_serrs E s
  | .bitvector n, v, hl => by
    have hl : 0 < n := hl
    show SErrs (Bitvector.serialize n v)
    unfold Bitvector.serialize
    rw [if_neg (by omega)]
    exact SErrs.bind (SErrs.append _) fun _ => SErrs.ok _
  | .bitlist n, v, _ => by
    show SErrs (Bitlist.serializeWithLength n v true)
    intro buf e he
    unfold Bitlist.serializeWithLength at he
    simp only [if_true] at he
    split at he
    · rename_i h
      exact RErrs.err (α := Unit) (show TruthfulSer (.invalidInstance (.bounded n v.len)) from h) e
        (by simpa using he)
    · split at he
      · cases he
      · split at he <;> cases he
  | .option t, v, hl => by
    match v with
    | none => exact uint_serrs .u8 _
    | some x =>
      exact SErrs.bind (uint_serrs .u8 _) fun _ => SErrs.bind (ser_errs E t x hl) fun _ => SErrs.ok _
  | .newtype t, v, hl => ser_errs E t v hl
  | .container fs, v, hl =>
    SErrs.bind (SErrs.ofRes (serF_errs E fs v _ hl.2.2)) fun s => serializer_serrs E s
  | .union vs, v, hl => serV_errs E vs 0 v hl.2

theorem serF_errs (E : Env) : ∀ (fs : Fields) (v : fs.Val) (s : Serializer), LegalF fs →
    RErrs ((fs.impls E).withElements v s)
  | .nil, _, _, _ => RErrs.ok _
  | .cons _ t rest, v, s, hl =>
    RErrs.bind (withElement_rerrs (ser_errs E t v.1 hl.1) s) fun s' => serF_errs E rest v.2 s' hl.2

theorem serV_errs (E : Env) : ∀ (vs : Variants) (i : Nat) (v : vs.Val), LegalV vs →
    SErrs ((vs.impls E).serialize i v)
  | .nil, _, v, _ => v.elim
  | .unit _, _, .inl _, _ => uint_serrs .u8 _
  | .unit rest, i, .inr v, hl => serV_errs E rest (i + 1) v hl
  | .data t _, _, .inl v, hl =>
    SErrs.bind (uint_serrs .u8 _) fun _ => SErrs.bind (ser_errs E t v hl.1) fun _ => SErrs.ok _
  | .data _ rest, i, .inr v, hl => serV_errs E rest (i + 1) v hl.2

end

/-! ## Paths -/

/-- Every error of the result names an element or an end of the path. -/
def PErrs {α : Type} (path : List PathElement) (r : Res MerkError α) : Prop :=
  ∀ e, r = .err e → TruthfulPath path e

namespace PErrs

variable {α β : Type} {path : List PathElement}

theorem ok (a : α) : PErrs path (.ok a : Res MerkError α) := fun _ h => nomatch h

theorem panic : PErrs path (.panic : Res MerkError α) := fun _ h => nomatch h

theorem err {e : MerkError} (h : TruthfulPath path e) : PErrs path (.err e : Res MerkError α) :=
  fun _ h' => by
    injection h' with h'
    exact h' ▸ h

theorem head (x : PathElement) (rest : List PathElement) :
    PErrs (x :: rest) (.err (.invalidPathElement x) : Res MerkError α) :=
  err (.inl ⟨x, by simp, rfl⟩)

theorem rest {x : PathElement} {rest : List PathElement} (h : ¬ rest.isEmpty = true) :
    PErrs (x :: rest) (.err (.invalidPath rest) : Res MerkError α) :=
  err (.inr ⟨rest, by simpa using h, List.suffix_cons x rest, rfl⟩)

theorem bind {x : Res MerkError α} {f : α → Res MerkError β} (h : PErrs path x)
    (hf : ∀ a, PErrs path (f a)) : PErrs path (x >>= f) := fun e he => by
  rcases Res.bind_eq_err.mp he with h1 | ⟨a, _, h2⟩
  · exact h e h1
  · exact hf a e h2

theorem lift {x : Calc α} : PErrs path (x.lift : Res MerkError α) := fun e he => by
  cases x with
  | ok _ => cases he
  | err e => exact e.elim
  | panic => cases he

theorem cons {x : PathElement} {r : Res MerkError α} (h : PErrs path r) : PErrs (x :: path) r :=
  fun e he => by
    rcases h e he with ⟨y, h1, h2⟩ | ⟨r, h1, h2, h3⟩
    · exact .inl ⟨y, List.mem_cons_of_mem _ h1, h2⟩
    · exact .inr ⟨r, h1, h2.trans (List.suffix_cons x path), h3⟩

end PErrs

theorem default_perrs (parent : Nat) (path : List PathElement) :
    PErrs path (defaultComputeGeneralizedIndex parent path) := by
  unfold defaultComputeGeneralizedIndex
  split
  · exact PErrs.ok _
  · rename_i h
    exact PErrs.err (.inr ⟨path, by simpa using h, List.suffix_rfl, rfl⟩)

theorem vector_perrs {α : Type} (E : Env) (T : SimpleSerialize α) (n : Nat)
    (hT : ∀ p path, PErrs path (T.computeGeneralizedIndex p path)) (parent : Nat)
    (path : List PathElement) : PErrs path (vectorGeneralizedIndex E T n parent path) := by
  unfold vectorGeneralizedIndex
  split
  · exact PErrs.ok _
  · split
    · exact PErrs.head _ _
    · exact PErrs.bind PErrs.lift fun _ => PErrs.bind PErrs.lift fun _ => PErrs.bind PErrs.lift
        fun _ => PErrs.bind PErrs.lift fun _ => PErrs.bind PErrs.lift fun _ =>
        PErrs.bind PErrs.lift fun _ => (hT _ _).cons
  · exact PErrs.head _ _

theorem list_perrs {α : Type} (E : Env) (T : SimpleSerialize α) (n : Nat)
    (hT : ∀ p path, PErrs path (T.computeGeneralizedIndex p path)) (parent : Nat)
    (path : List PathElement) : PErrs path (listGeneralizedIndex E T n parent path) := by
  unfold listGeneralizedIndex
  split
  · exact PErrs.ok _
  · split
    · exact PErrs.head _ _
    · exact PErrs.bind PErrs.lift fun _ => PErrs.bind PErrs.lift fun _ => PErrs.bind PErrs.lift
        fun _ => PErrs.bind PErrs.lift fun _ => PErrs.bind PErrs.lift fun _ =>
        PErrs.bind PErrs.lift fun _ => PErrs.bind PErrs.lift fun _ => (hT _ _).cons
  · split
    · exact PErrs.bind PErrs.lift fun _ => PErrs.lift
    · rename_i h
      exact PErrs.rest h
  · exact PErrs.head _ _

theorem bitvector_perrs (E : Env) (n parent : Nat) (path : List PathElement) :
    PErrs path (bitvectorGeneralizedIndex E n parent path) := by
  unfold bitvectorGeneralizedIndex
  split
  · exact PErrs.ok _
  · split
    · exact PErrs.head _ _
    · exact PErrs.bind PErrs.lift fun _ => PErrs.bind PErrs.lift fun _ => PErrs.bind PErrs.lift
        fun _ => (default_perrs _ _).cons
  · exact PErrs.head _ _

theorem bitlist_perrs (E : Env) (n parent : Nat) (path : List PathElement) :
    PErrs path (bitlistGeneralizedIndex E n parent path) := by
  unfold bitlistGeneralizedIndex
  split
  · exact PErrs.ok _
  · split
    · exact PErrs.head _ _
    · exact PErrs.bind PErrs.lift fun _ => PErrs.bind PErrs.lift fun _ => PErrs.bind PErrs.lift
        fun _ => PErrs.bind PErrs.lift fun _ => (default_perrs _ _).cons
  · exact PErrs.head _ _

mutual

theorem gi_errs (E : Env) : ∀ (t : Ty) (parent : Nat) (path : List PathElement),
    PErrs path ((t.impl E).computeGeneralizedIndex parent path)
  | .uint _, p, path => default_perrs p path
  | .u256, p, path => default_perrs p path
  | .bool, p, path => default_perrs p path
  | .node, p, path => default_perrs p path
  | .array t n, p, path => vector_perrs E _ n (fun p path => gi_errs E t p path) p path
  | .vector t n, p, path => vector_perrs E _ n (fun p path => gi_errs E t p path) p path
  | .list t n, p, path => list_perrs E _ n (fun p path => gi_errs E t p path) p path
  | .bitvector n, p, path => bitvector_perrs E n p path
  | .bitlist n, p, path => bitlist_perrs E n p path
  | .option t, p, path => by
    show PErrs path ((SimpleSerialize.option E (t.impl E)).computeGeneralizedIndex p path)
    simp only [SimpleSerialize.option]
    split
    · exact PErrs.ok _
    · split
      · exact PErrs.head _ _
      · refine PErrs.bind PErrs.lift fun c => ?_
        split
        · split
          · exact PErrs.ok _
          · rename_i h
            exact PErrs.rest h
        · exact (gi_errs E t c _).cons
    · split
      · exact PErrs.bind PErrs.lift fun _ => PErrs.lift
      · rename_i h
        exact PErrs.rest h
    · exact PErrs.head _ _
  | .newtype t, p, path => gi_errs E t p path
  | .container fs, p, path => by
    show PErrs path ((SimpleSerialize.container E (fs.impls E)).computeGeneralizedIndex p path)
    simp only [SimpleSerialize.container]
    split
    · exact PErrs.ok _
    · exact giF_errs E fs _ _ _ _ _
    · exact PErrs.head _ _
  | .union vs, p, path => by
    show PErrs path ((SimpleSerialize.union E (vs.impls E)).computeGeneralizedIndex p path)
    simp only [SimpleSerialize.union]
    split
    · exact PErrs.ok _
    · split
      · exact PErrs.head _ _
      · exact PErrs.bind PErrs.lift fun c => giV_errs E vs c _ _ _
    · split
      · exact PErrs.bind PErrs.lift fun _ => PErrs.lift
      · rename_i h
        exact PErrs.rest h
    · exact PErrs.head _ _

theorem giF_errs (E : Env) : ∀ (fs : Fields) (total parent : Nat) (rest : List PathElement)
    (name : String) (i : Nat), PErrs (.field name :: rest)
      ((fs.impls E).generalizedIndexByField E total parent rest name i)
  | .nil, _, _, _, _, _ => PErrs.head _ _
  | .cons field t fs, total, parent, rest, name, i => by
    show PErrs _ (if name = field then ((E.nextPowerOfTwo total).lift >>= fun p =>
        (E.mul parent p).lift >>= fun b => (E.add b i).lift >>= fun child =>
        (t.impl E).computeGeneralizedIndex child rest)
      else (fs.impls E).generalizedIndexByField E total parent rest name (i + 1))
    split
    · exact PErrs.bind PErrs.lift fun _ => PErrs.bind PErrs.lift fun _ => PErrs.bind PErrs.lift
        fun c => (gi_errs E t c rest).cons
    · exact giF_errs E fs total parent rest name (i + 1)

theorem giV_errs (E : Env) : ∀ (vs : Variants) (child : Nat) (x : PathElement)
    (rest : List PathElement) (i : Nat),
    PErrs (x :: rest) ((vs.impls E).generalizedIndex child rest i)
  | .nil, _, _, _, _ => PErrs.panic
  | .unit _, child, x, rest, 0 => by
    show PErrs _ (if rest.isEmpty then .ok child else .err (.invalidPath rest))
    split
    · exact PErrs.ok _
    · rename_i h
      exact PErrs.rest h
  | .unit vs, child, x, rest, i + 1 => giV_errs E vs child x rest i
  | .data t _, child, _, rest, 0 => (gi_errs E t child rest).cons
  | .data _ vs, child, x, rest, i + 1 => giV_errs E vs child x rest i

end

end Ssz
