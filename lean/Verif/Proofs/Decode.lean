import Verif.Proofs.Serialize
import Mathlib.Data.List.Chain

/-!
# Decoding of homogeneous composites and containers, on the level of byte pieces
-/

namespace Ssz

open Spec

/-! ## `chunks_exact` -/

theorem chunksExact_flatten {α : Type} {s : Nat} (hs : 0 < s) (ps : List (List α))
    (h : ∀ p ∈ ps, p.length = s) : chunksExact s ps.flatten = ps := by
  induction ps with
  | nil => rw [chunksExact, dif_neg (by simp; omega)]; 
  | cons p ps ih =>
    have hp := h p (by simp)
    rw [chunksExact, dif_pos ⟨hs, by simp [hp]⟩, List.flatten_cons, List.take_left' hp,
      List.drop_left' hp, ih (fun q hq => h q (by simp [hq]))]

theorem chunksExact_spec {α : Type} {s : Nat} (hs : 0 < s) (xs : List α)
    (h : xs.length % s = 0) :
    (chunksExact s xs).flatten = xs ∧ ∀ c ∈ chunksExact s xs, c.length = s := by
  induction hn : xs.length using Nat.strongRecOn generalizing xs with
  | ind n ih =>
    subst hn
    rw [chunksExact]
    split
    · rename_i h1
      have h2 : (xs.drop s).length % s = 0 := by
        rw [List.length_drop, ← Nat.mod_eq_sub_mod h1.2]; exact h
      obtain ⟨i1, i2⟩ := ih (xs.drop s).length (by simp; omega) (xs.drop s) h2 rfl
      constructor
      · rw [List.flatten_cons, i1, List.take_append_drop]
      · intro c hc
        rcases List.mem_cons.mp hc with h3 | h3
        · subst h3; simp; omega
        · exact i2 c h3
    · rename_i h1
      have h2 : xs.length < s := by
        by_contra hc; exact h1 ⟨hs, by omega⟩
      rw [Nat.mod_eq_of_lt h2] at h
      have : xs = [] := List.eq_nil_of_length_eq_zero h
      subst this
      simp

theorem flatten_length_const {α : Type} (ps : List (List α)) (s : Nat)
    (h : ∀ p ∈ ps, p.length = s) : ps.flatten.length = s * ps.length := by
  induction ps with
  | nil => rfl
  | cons p ps ih =>
    simp only [List.flatten_cons, List.length_append, List.length_cons]
    rw [ih (fun q hq => h q (by simp [hq])), h p (by simp), Nat.mul_succ]; omega

theorem chunksExact_length {α : Type} {s : Nat} (hs : 0 < s) (xs : List α)
    (h : xs.length % s = 0) : xs.length = s * (chunksExact s xs).length := by
  obtain ⟨h1, h2⟩ := chunksExact_spec hs xs h
  have := flatten_length_const _ s h2
  rw [h1] at this
  exact this

/-! ## Basic types -/

theorem uint_deserialize (u : UintTy) (b : Bytes) :
    (Serializable.uint u).deserialize b =
      if b.length < u.bits / 8 then .err (.expectedFurtherInput b.length (u.bits / 8))
      else if b.length > u.bits / 8 then .err (.additionalInput b.length (u.bits / 8))
      else .ok (BitVec.ofNat u.bits (fromLeBytes b)) := by
  show (if b.length < u.bits / 8 then .err (DeError.expectedFurtherInput b.length (u.bits / 8))
      else if b.length > u.bits / 8 then .err (DeError.additionalInput b.length (u.bits / 8))
      else (slice b 0 (u.bits / 8)).map fun bytes => BitVec.ofNat u.bits (fromLeBytes bytes)) = _
  by_cases h1 : b.length < u.bits / 8
  · rw [if_pos h1, if_pos h1]
  · rw [if_neg h1, if_neg h1]
    by_cases h2 : b.length > u.bits / 8
    · rw [if_pos h2, if_pos h2]
    · rw [if_neg h2, if_neg h2, slice_ok (by omega) (by omega)]
      simp only [List.drop_zero, Nat.sub_zero, Res.map_ok]
      rw [List.take_of_length_le (by omega)]

theorem deserializeU32_ok {b : Bytes} (h : b.length = 4) :
    deserializeU32 b = .ok (fromLeBytes b) := by
  rw [deserializeU32, uint_deserialize]
  simp only [UintTy.bits, Nat.reduceDiv, h, Nat.lt_irrefl, if_false, gt_iff_lt, Res.map_ok,
    BitVec.toNat_ofNat]
  have := fromLeBytes_lt b
  rw [h] at this
  congr 1
  exact Nat.mod_eq_of_lt (by simpa using this)

theorem deserializeU32_leBytes {x : Nat} (h : x < 2 ^ 32) :
    deserializeU32 (leBytes 4 x) = .ok x := by
  rw [deserializeU32_ok (by simp), fromLeBytes_leBytes]
  congr 1
  exact Nat.mod_eq_of_lt (by simpa using h)

/-! ## Offsets and spans -/

/-- Start positions of consecutive pieces, followed by the end position. -/
def offs : Nat → List Bytes → List Nat
  | o, [] => [o]
  | o, p :: ps => o :: offs (o + p.length) ps

theorem offs_length (o : Nat) (ps : List Bytes) : (offs o ps).length = ps.length + 1 := by
  induction ps generalizing o with
  | nil => rfl
  | cons p ps ih => simp [offs, ih]

theorem deserializeSpans_complete {α : Type} (T : Serializable α) (pre : Bytes) (ps : List Bytes) :
    deserializeSpans T (pre ++ ps.flatten) (offs pre.length ps) = Res.mapList T.deserialize ps := by
  induction ps generalizing pre with
  | nil => simp [offs, deserializeSpans, Res.mapList]
  | cons p ps ih =>
    have hoff : ∃ r, offs (pre.length + p.length) ps = (pre.length + p.length) :: r := by
      cases ps <;> simp [offs]
    obtain ⟨r, hr⟩ := hoff
    rw [offs, hr, deserializeSpans, if_neg (by omega)]
    have hsl : (slice (pre ++ (p :: ps).flatten) pre.length (pre.length + p.length) :
        Res DeError Bytes) = .ok p := by
      rw [List.flatten_cons, ← List.append_assoc]
      exact slice_append rfl rfl
    rw [hsl, ← hr]
    have := ih (pre ++ p)
    rw [List.length_append, List.append_assoc, ← List.flatten_cons] at this
    rw [this]
    simp only [Res.ok_bind, Res.mapList]
    cases T.deserialize p with
    | ok v => cases Res.mapList T.deserialize ps <;> rfl
    | err e => rfl
    | panic => rfl

theorem deserializeSpans_sound {α : Type} (T : Serializable α) (enc : Bytes) (o : Nat)
    (rest : List Nat) (vs : List α) (h : deserializeSpans T enc (o :: rest) = .ok vs)
    (hlast : (o :: rest).getLast? = some enc.length) :
    ∃ ps : List Bytes, o :: rest = offs o ps ∧ enc.drop o = ps.flatten ∧ o ≤ enc.length ∧
      List.Forall₂ (fun p v => T.deserialize p = .ok v) ps vs := by
  induction rest generalizing o vs with
  | nil =>
    simp only [deserializeSpans] at h
    injection h with h
    subst h
    simp only [List.getLast?_singleton, Option.some.injEq] at hlast
    exact ⟨[], rfl, by simp [hlast], by omega, .nil⟩
  | cons stop rest ih =>
    simp only [deserializeSpans] at h
    split at h
    · cases h
    · rename_i hle
      simp only [Res.bind_eq_ok] at h
      obtain ⟨piece, h1, v, h2, vs', h3, h4⟩ := h
      injection h4 with h4
      subst h4
      obtain ⟨ps, e1, e2, e3, e4⟩ := ih stop vs' h3 (by
        rw [List.getLast?_cons_cons] at hlast; exact hlast)
      rw [slice_eq_ok] at h1
      obtain ⟨l1, l2, l3⟩ := h1
      have hpl : piece.length = stop - o := by rw [l3]; simp; omega
      refine ⟨piece :: ps, ?_, ?_, by omega, .cons h2 e4⟩
      · rw [offs, hpl, show o + (stop - o) = stop by omega, ← e1]
      · rw [List.flatten_cons, ← e2, l3]
        have : enc.drop stop = (enc.drop o).drop (stop - o) := by
          rw [List.drop_drop]; congr 1; omega
        rw [this, List.take_append_drop]

/-! ## Variable-size homogeneous composites -/

/-- Pieces of a composite of variable-size elements. -/
def varPieces (ps : List Bytes) : List Piece := ps.map fun p => (true, p)

theorem headLen_varPieces (ps : List Bytes) : headLen (varPieces ps) = 4 * ps.length := by
  induction ps with
  | nil => rfl
  | cons p ps ih =>
    simp only [varPieces, headLen, List.map_cons, List.sum_cons, headSize, if_true,
      List.length_cons] at ih ⊢
    omega

theorem tails_varPieces (ps : List Bytes) : tails (varPieces ps) = ps.flatten := by
  induction ps with
  | nil => rfl
  | cons p ps ih =>
    simp only [varPieces, tails, List.map_cons, List.flatMap_cons, if_true,
      List.flatten_cons] at ih ⊢
    rw [ih]

theorem heads_varPieces (o : Nat) (ps : List Bytes) :
    heads o (varPieces ps) = ((offs o ps).dropLast.map (leBytes 4)).flatten := by
  induction ps generalizing o with
  | nil => rfl
  | cons p ps ih =>
    simp only [varPieces, List.map_cons, heads] at ih ⊢
    rw [ih, offs]
    have : (o :: offs (o + p.length) ps).dropLast = o :: (offs (o + p.length) ps).dropLast := by
      cases ps <;> simp [offs]
    rw [this]
    simp

theorem mapList_u32 (cs : List Bytes) (h : ∀ c ∈ cs, c.length = 4) :
    Res.mapList deserializeU32 cs = .ok (cs.map fromLeBytes) :=
  Res.mapList_ok_of (fun c hc => deserializeU32_ok (h c hc))

theorem words_length (xs : List Nat) : ∀ c ∈ xs.map (leBytes 4), c.length = 4 := by
  intro c hc
  obtain ⟨x, _, rfl⟩ := List.mem_map.mp hc
  simp

theorem offs_getLast (o : Nat) (ps : List Bytes) :
    (offs o ps).getLast? = some (o + ps.flatten.length) := by
  induction ps generalizing o with
  | nil => simp [offs]
  | cons p ps ih =>
    rw [offs]
    have : ∃ a r, offs (o + p.length) ps = a :: r := by cases ps <;> simp [offs]
    obtain ⟨a, r, hr⟩ := this
    rw [hr, List.getLast?_cons_cons, ← hr, ih]
    simp [Nat.add_assoc]

theorem offs_eq_append (o : Nat) (ps : List Bytes) :
    (offs o ps).dropLast ++ [o + ps.flatten.length] = offs o ps := by
  have h := offs_getLast o ps
  have hne : offs o ps ≠ [] := by cases ps <;> simp [offs]
  rw [List.getLast?_eq_some_getLast hne, Option.some.injEq] at h
  rw [← h, List.dropLast_concat_getLast]

theorem offs_le (o : Nat) (ps : List Bytes) : ∀ x ∈ offs o ps, x ≤ o + ps.flatten.length := by
  induction ps generalizing o with
  | nil => simp [offs]
  | cons p ps ih =>
    intro x hx
    simp only [offs, List.mem_cons] at hx
    simp only [List.flatten_cons, List.length_append]
    rcases hx with hx | hx
    · omega
    · have := ih _ x hx; omega

theorem starts_varPieces (o : Nat) (ps : List Bytes) :
    starts o (varPieces ps) = (offs o ps).dropLast := by
  induction ps generalizing o with
  | nil => rfl
  | cons p ps ih =>
    simp only [varPieces, List.map_cons, starts] at ih ⊢
    rw [ih, offs]
    cases ps <;> simp [offs]

theorem starts_le : ∀ (o : Nat) (ps : List Piece), ∀ x ∈ starts o ps, x ≤ o + (tails ps).length
  | _, [], _, hx => nomatch hx
  | o, (true, b) :: ps, x, hx => by
    have ht : tails ((true, b) :: ps) = b ++ tails ps := by simp [tails]
    rw [ht, List.length_append]
    rcases List.mem_cons.mp hx with rfl | hx
    · omega
    · have := starts_le (o + b.length) ps x hx
      omega
  | o, (false, b) :: ps, x, hx => by
    have ht : tails ((false, b) :: ps) = tails ps := by simp [tails]
    rw [ht]
    exact starts_le o ps x hx

/-- In an encoding below `2^32` bytes the offsets fit. -/
theorem addressed_of_length {ps : List Piece} (h : (assemble ps).length < maxLen) :
    Addressed ps := fun o ho => by
  have h1 := starts_le _ _ o ho
  rw [assemble_length] at h
  have hm : maxLen = 2 ^ 32 := rfl
  omega

theorem deserializeVariable_complete {α : Type} (T : Serializable α) (ps : List Bytes)
    (h : Addressed (varPieces ps)) :
    deserializeVariableHomogeneousComposite T (assemble (varPieces ps)) =
      Res.mapList T.deserialize ps := by
  cases ps with
  | nil => rfl
  | cons p ps' =>
    generalize hps : p :: ps' = ps at h ⊢
    have hk : 0 < ps.length := by rw [← hps]; simp
    have hlen := assemble_length (varPieces ps)
    rw [headLen_varPieces, tails_varPieces] at hlen
    rw [Addressed, headLen_varPieces, starts_varPieces] at h
    have h0 : 4 * ps.length < 2 ^ 32 := h _ (by
      rw [← hps]
      cases ps' <;> simp [offs])
    have hA : assemble (varPieces ps) =
        ((offs (4 * ps.length) ps).dropLast.map (leBytes 4)).flatten ++ ps.flatten := by
      rw [assemble, headLen_varPieces, tails_varPieces, heads_varPieces]
    have hhl : (((offs (4 * ps.length) ps).dropLast.map (leBytes 4)).flatten).length =
        4 * ps.length := by
      rw [flatten_length_const _ 4 (words_length _)]
      simp [offs_length]
    have hne : (assemble (varPieces ps)).isEmpty = false := by
      rw [List.isEmpty_eq_false_iff_exists_mem]
      exact ⟨(assemble (varPieces ps))[0]'(by omega), List.getElem_mem _⟩
    simp only [deserializeVariableHomogeneousComposite, hne, Bool.false_eq_true, if_false]
    have hword : getRange (assemble (varPieces ps)) 0 4 = some (leBytes 4 (4 * ps.length)) := by
      rw [hA]
      rw [← hps, offs]
      have : ((4 * (p :: ps').length) :: offs (4 * (p :: ps').length + p.length) ps').dropLast =
          4 * (p :: ps').length :: (offs (4 * (p :: ps').length + p.length) ps').dropLast := by
        cases ps' <;> simp [offs]
      rw [this, List.map_cons, List.flatten_cons, List.append_assoc]
      have := getRange_append (pre := []) (mid := leBytes 4 (4 * (p :: ps').length))
        (post := (List.map (leBytes 4) (offs (4 * (p :: ps').length + p.length) ps').dropLast).flatten
          ++ (p :: ps').flatten) (s := 0) (e := 4) rfl (by simp)
      simpa using this
    simp only [hword]
    rw [deserializeU32_leBytes (by omega)]
    simp only [Res.ok_bind]
    rw [if_neg (by omega), if_neg (by omega)]
    have hhead : (slice (assemble (varPieces ps)) 0 (4 * ps.length) : Res DeError Bytes) =
        .ok ((offs (4 * ps.length) ps).dropLast.map (leBytes 4)).flatten := by
      rw [hA]
      have := slice_append (ε := DeError) (pre := [])
        (mid := ((offs (4 * ps.length) ps).dropLast.map (leBytes 4)).flatten) (post := ps.flatten)
        (s := 0) (e := 4 * ps.length) rfl (by rw [hhl]; simp)
      simpa using this
    rw [hhead]
    simp only [Res.ok_bind]
    rw [chunksExact_flatten (by omega) _ (words_length _), mapList_u32 _ (words_length _)]
    simp only [Res.ok_bind, List.map_map]
    have hid : List.map (fromLeBytes ∘ leBytes 4) (offs (4 * ps.length) ps).dropLast =
        (offs (4 * ps.length) ps).dropLast := by
      conv => rhs; rw [← List.map_id (offs (4 * ps.length) ps).dropLast]
      apply List.map_congr_left
      intro x hx
      have := h x hx
      simp only [Function.comp, fromLeBytes_leBytes, id]
      exact Nat.mod_eq_of_lt (by simp; omega)
    rw [hid, hlen, offs_eq_append]
    have := deserializeSpans_complete T
      ((offs (4 * ps.length) ps).dropLast.map (leBytes 4)).flatten ps
    rw [hhl, ← hA] at this
    exact this

theorem deserializeVariable_sound {α : Type} (T : Serializable α) (b : Bytes) (vs : List α)
    (h : deserializeVariableHomogeneousComposite T b = .ok vs) :
    vs = [] ∨ ∃ ps : List Bytes, b = assemble (varPieces ps) ∧ Addressed (varPieces ps) ∧
      List.Forall₂ (fun p v => T.deserialize p = .ok v) ps vs := by
  unfold deserializeVariableHomogeneousComposite at h
  split at h
  · injection h with h; exact Or.inl h.symm
  · split at h
    · cases h
    · rename_i word hw
      have hwl : word.length = 4 ∧ word = b.take 4 ∧ 4 ≤ b.length := by
        unfold getRange at hw
        split at hw
        · rename_i hc
          injection hw with hw
          subst hw
          simp; omega
        · cases hw
      rw [deserializeU32_ok hwl.1] at h
      simp only [Res.ok_bind] at h
      split at h
      · cases h
      · split at h
        · cases h
        · rename_i hle hmod
          simp only [Res.bind_eq_ok] at h
          obtain ⟨head, h1, offsets, h2, h3⟩ := h
          generalize hL : fromLeBytes word = L at *
          by_cases hL0 : L = 0
          · left
            subst hL0
            rw [slice_eq_ok] at h1
            obtain ⟨_, _, h1⟩ := h1
            simp at h1
            subst h1
            rw [chunksExact, dif_neg (by simp)] at h2
            simp only [Res.mapList] at h2
            injection h2 with h2
            subst h2
            simp only [List.nil_append, deserializeSpans] at h3
            injection h3 with h3
            exact h3.symm
          · right
            rw [slice_eq_ok] at h1
            obtain ⟨_, hlb, h1⟩ := h1
            simp only [List.drop_zero, Nat.sub_zero] at h1
            have hhl : head.length = L := by rw [h1]; simp; omega
            obtain ⟨c1, c2⟩ := chunksExact_spec (s := 4) (by omega) head (by rw [hhl]; omega)
            rw [mapList_u32 _ c2] at h2
            injection h2 with h2
            -- the first chunk is the first word
            generalize hcs : chunksExact 4 head = cs at *
            have hcl : L = 4 * cs.length := by
              rw [← hhl, ← c1]; exact flatten_length_const _ 4 c2
            cases cs with
            | nil => simp at hcl; omega
            | cons c cs =>
              have hc : c = word := by
                have e : head.take 4 = c := by
                  rw [← c1, List.flatten_cons, List.take_left' (c2 c (by simp))]
                rw [← e, h1, List.take_take, hwl.2.1]
                congr 1; omega
              have hoff : offsets ++ [b.length] = L :: (cs.map fromLeBytes ++ [b.length]) := by
                rw [← h2, List.map_cons, hc, hL]; rfl
              rw [hoff] at h3
              obtain ⟨ps, e1, e2, e3, e4⟩ := deserializeSpans_sound T b L _ vs h3 (by
                rw [← List.cons_append, List.getLast?_append]; simp)
              refine ⟨ps, ?_, ?_, e4⟩
              rotate_left
              · have hpl : ps.length = (c :: cs).length := by
                  have := congrArg List.length e1
                  rw [offs_length] at this
                  simp at this
                  simp; omega
                have hoffs : (offs L ps).dropLast = (c :: cs).map fromLeBytes := by
                  rw [← e1, ← List.cons_append, List.dropLast_concat, List.map_cons, hc, hL]
                rw [Addressed, headLen_varPieces, starts_varPieces, hpl, ← hcl, hoffs]
                intro o ho
                obtain ⟨x, hx, rfl⟩ := List.mem_map.mp ho
                have := fromLeBytes_lt x
                rw [c2 x hx] at this
                simpa using this
              have hpl : ps.length = (c :: cs).length := by
                have := congrArg List.length e1
                rw [offs_length] at this
                simp at this
                simp; omega
              have hoffs : (offs L ps).dropLast = (c :: cs).map fromLeBytes := by
                rw [← e1, ← List.cons_append, List.dropLast_concat, List.map_cons, hc, hL]
              rw [assemble, headLen_varPieces, tails_varPieces, heads_varPieces, hpl, ← hcl, ← e2,
                hoffs, List.map_map]
              have : List.map (leBytes 4 ∘ fromLeBytes) (c :: cs) = c :: cs := by
                conv => rhs; rw [← List.map_id (c :: cs)]
                apply List.map_congr_left
                intro x hx
                have hx4 := c2 x hx
                simp only [Function.comp, id]
                rw [← hx4, leBytes_fromLeBytes]
              rw [this, c1, h1, List.take_append_drop]

/-! ## Containers -/

/-- What the container decoder knows of a field: variable-size or not, and the size. -/
abbrev Shape := List (Bool × Nat)

/-- `ContainerDeserializer::parse` over all fields, on shapes. -/
def parseShape (E : Env) (encoding : Bytes) : Shape → ContainerDeserializer →
    Res DeError ContainerDeserializer
  | [], d => .ok d
  | (v, s) :: rest, d => do
    let d' ← d.parse E (α := Unit)
      { isVariableSize := v, sizeHint := .ok s, serialize := fun _ => BufM.ofRes .panic,
        deserialize := fun _ => .panic } encoding
    parseShape E encoding rest d'

/-- Shape of a struct. -/
def shapeF : Fields → Shape
  | .nil => []
  | .cons _ t rest => (isVar t, fixedLen t) :: shapeF rest

theorem parse_congr {α β : Type} {E : Env} {T : Serializable α} {U : Serializable β}
    (h1 : T.isVariableSize = U.isVariableSize) (h2 : T.sizeHint = U.sizeHint)
    (d : ContainerDeserializer) (b : Bytes) : d.parse E T b = d.parse E U b := by
  simp only [ContainerDeserializer.parse, h1, h2]

theorem parseAll_eq (E : Env) (b : Bytes) : ∀ (fs : Fields), FitsF fs →
    ∀ d, (fs.impls E).parseAll E b d = parseShape E b (shapeF fs) d
  | .nil, _, _ => rfl
  | .cons _ t rest, h, d => by
    show (d.parse E (t.impl E).toSerializable b >>= fun d' => (rest.impls E).parseAll E b d') = _
    simp only [shapeF, parseShape]
    rw [parse_congr (T := (t.impl E).toSerializable)
      (U := Serializable.mk (α := Unit) (isVar t) (.ok (fixedLen t)) (fun _ => BufM.ofRes .panic)
        (fun _ => .panic))
      (impl_isVar E t) (impl_sizeHint E t h.1)]
    congr 1
    funext d'
    exact parseAll_eq E b rest h.2 d'

/-- Length of the fixed part of a shape. -/
def shapeLen (sh : Shape) : Nat := (sh.map fun s => if s.1 then 4 else s.2).sum

theorem shapeLen_shapeF : ∀ fs : Fields, shapeLen (shapeF fs) = fixedLenF fs
  | .nil => rfl
  | .cons _ t rest => by
    have := shapeLen_shapeF rest
    simp only [shapeLen, shapeF, List.map_cons, List.sum_cons, fixedLenF] at this ⊢
    rw [this]

/-- The pieces have the given shape. -/
def HasShape : List Piece → Shape → Prop
  | [], [] => True
  | (v, b) :: ps, (v', s) :: sh => v = v' ∧ (v = false → b.length = s) ∧ HasShape ps sh
  | _, _ => False

theorem headLen_of_hasShape : ∀ (ps : List Piece) (sh : Shape), HasShape ps sh →
    headLen ps = shapeLen sh
  | [], [], _ => rfl
  | (v, b) :: ps, (v', s) :: sh, h => by
    obtain ⟨h1, h2, h3⟩ := h
    have := headLen_of_hasShape ps sh h3
    simp only [headLen, shapeLen, List.map_cons, List.sum_cons] at this ⊢
    rw [this]
    subst h1
    cases v <;> simp_all [headSize]
  | [], _ :: _, h => h.elim
  | _ :: _, [], h => h.elim

/-- Segments recorded for pieces starting at `T`. -/
def segs : Nat → List Piece → List Segment
  | _, [] => []
  | T, (true, _) :: ps => .offset :: segs (T + 4) ps
  | T, (false, b) :: ps => .fixed T (T + b.length) :: segs (T + b.length) ps

/-- Spans of the pieces. -/
def spansF : Nat → Nat → List Piece → List Nat
  | _, _, [] => []
  | T, off, (true, b) :: ps => off :: (off + b.length) :: spansF (T + 4) (off + b.length) ps
  | T, off, (false, b) :: ps => T :: (T + b.length) :: spansF (T + b.length) off ps

theorem headLen_cons (p : Piece) (ps : List Piece) : headLen (p :: ps) = headSize p + headLen ps := by
  simp [headLen]

theorem tails_cons_true (b : Bytes) (ps : List Piece) : tails ((true, b) :: ps) = b ++ tails ps := by
  simp [tails]

theorem tails_cons_false (b : Bytes) (ps : List Piece) : tails ((false, b) :: ps) = tails ps := by
  simp [tails]

theorem parseShape_complete (E : Env) (enc : Bytes) (hlen : enc.length < 2 ^ 63) :
    ∀ (ps : List Piece) (sh : Shape), HasShape ps sh → ∀ (S : List Segment) (O : List Nat)
      (pre post : Bytes) (off : Nat), enc = pre ++ heads off ps ++ post →
      off + (tails ps).length ≤ enc.length → (∀ o, O.getLast? = some o → o ≤ off) →
      (∀ o ∈ starts off ps, o < 2 ^ 32) →
      parseShape E enc sh ⟨S, O, pre.length⟩ =
        .ok ⟨S ++ segs pre.length ps, O ++ starts off ps, pre.length + headLen ps⟩
  | [], [], _, S, O, pre, post, off, _, _, _, _ => by simp [parseShape, segs, starts, headLen]
  | (v, b) :: ps, (v', s) :: sh, hsh, S, O, pre, post, off, henc, hoff, hO, hA => by
    obtain ⟨h1, h2, h3⟩ := hsh
    subst h1
    have hus : usizeMod = 2 ^ 64 := rfl
    have hel := congrArg List.length henc
    simp only [List.length_append, heads_length] at hel
    cases v with
    | true =>
      simp only [heads] at henc
      rw [tails_cons_true, List.length_append] at hoff
      rw [headLen_cons] at hel
      simp only [headSize, if_true] at hel
      simp only [parseShape, ContainerDeserializer.parse, if_true]
      rw [Env.sub_eq_ok (by omega)]
      simp only [Res.lift_ok, Res.ok_bind]
      have hg : getRange enc pre.length (pre.length + 4) = some (leBytes 4 off) := by
        rw [henc, List.append_assoc, List.append_assoc, ← List.append_assoc]
        exact getRange_append rfl (by simp)
      rw [hg]
      simp only
      rw [deserializeU32_leBytes (hA off (by simp [starts]))]
      have hchk : checkOffset E enc.length O.getLast? off = .ok () := by
        cases hl : O.getLast? with
        | none => rfl
        | some o =>
          have := hO o hl
          simp only [checkOffset]
          rw [if_neg (by omega), if_neg (by omega), if_neg (by omega)]
      simp only [Res.ok_bind, hchk]
      have := parseShape_complete E enc hlen ps sh h3 (S ++ [.offset]) (O ++ [off])
        (pre ++ leBytes 4 off) post (off + b.length) (by rw [henc]; simp [List.append_assoc])
        (by omega) (by intro o ho; simp at ho; omega) fun o ho => hA o (by simp [starts, ho])
      rw [List.length_append, leBytes_length] at this
      rw [this]
      simp [segs, starts, headLen_cons, headSize, Nat.add_assoc]
    | false =>
      have hs := h2 rfl
      subst hs
      simp only [heads] at henc
      rw [tails_cons_false] at hoff
      rw [headLen_cons] at hel
      simp only [headSize, Bool.false_eq_true, if_false] at hel
      simp only [parseShape, ContainerDeserializer.parse, Bool.false_eq_true, if_false, Res.lift_ok,
        Res.ok_bind]
      rw [Env.add_eq_ok (by omega)]
      simp only [Res.lift_ok, Res.ok_bind]
      rw [if_neg (by omega), if_neg (by omega)]
      simp only [Res.ok_bind]
      have := parseShape_complete E enc hlen ps sh h3 (S ++ [.fixed pre.length (pre.length + b.length)]) O
        (pre ++ b) post off (by rw [henc]; simp [List.append_assoc]) (by omega) hO
        (by simpa [starts] using hA)
      rw [List.length_append] at this
      rw [this]
      simp [segs, starts, headLen_cons, headSize, Nat.add_assoc]
  | [], _ :: _, h, _, _, _, _, _, _, _, _, _ => h.elim
  | _ :: _, [], h, _, _, _, _, _, _, _, _, _ => h.elim

theorem finalizeSegments_eq (E : Env) (len : Nat) (hlen : len < 2 ^ 63) :
    ∀ (ps : List Piece) (T off total : Nat), off + (tails ps).length = len →
      total + (tails ps).length < 2 ^ 64 →
      finalizeSegments E len (segs T ps) (starts off ps ++ [len]) total =
        .ok (spansF T off ps, total + (tails ps).length)
  | [], T, off, total, _, _ => by simp [finalizeSegments, segs, spansF, tails]
  | (true, b) :: ps, T, off, total, h, ht => by
    rw [tails_cons_true, List.length_append] at h ht
    simp only [segs, starts, finalizeSegments, List.cons_append, List.getElem?_cons_zero]
    have hnext : ∃ r, starts (off + b.length) ps ++ [len] = (off + b.length) :: r := by
      clear ht
      induction ps generalizing off b with
      | nil => simp only [tails, List.flatMap_nil, List.length_nil] at h; exact ⟨[], by simp [starts]; omega⟩
      | cons p ps ih =>
        obtain ⟨v, c⟩ := p
        cases v with
        | true => exact ⟨_, rfl⟩
        | false =>
          simp only [starts]
          rw [tails_cons_false] at h
          exact ih b off h
    obtain ⟨r, hr⟩ := hnext
    have hus : usizeMod = 2 ^ 64 := rfl
    rw [hr]
    simp only [List.getElem?_cons_succ, List.getElem?_cons_zero]
    rw [if_neg (by omega), if_neg (by omega), Env.sub_eq_ok (by omega)]
    simp only [Res.lift_ok, Res.ok_bind]
    rw [Env.add_eq_ok (by omega)]
    simp only [Res.lift_ok, Res.ok_bind, List.drop_succ_cons, List.drop_zero]
    rw [← hr, finalizeSegments_eq E len hlen ps (T + 4) (off + b.length) _ (by omega) (by omega)]
    simp only [Res.ok_bind, spansF, tails_cons_true, List.length_append]
    congr 2; omega
  | (false, b) :: ps, T, off, total, h, ht => by
    rw [tails_cons_false] at h ht
    simp only [segs, starts, finalizeSegments]
    rw [finalizeSegments_eq E len hlen ps (T + b.length) off total h ht]
    simp [spansF, tails_cons_false]

/-- Parsing the encoding of some pieces finds the pieces. -/
theorem container_complete (E : Env) (ps : List Piece) (sh : Shape) (h : HasShape ps sh)
    (hA : Addressed ps) (hlen : (assemble ps).length < 2 ^ 63) :
    (do let d ← parseShape E (assemble ps) sh {}
        d.finalize E (assemble ps)) = .ok (spansF 0 (headLen ps) ps) := by
  have hal := assemble_length ps
  have := parseShape_complete E (assemble ps) hlen ps sh h [] [] [] (tails ps) (headLen ps)
    (by simp [assemble]) (by omega) (by simp) hA
  rw [show ({} : ContainerDeserializer) = ⟨[], [], ([] : Bytes).length⟩ from rfl, this]
  simp only [Res.ok_bind, ContainerDeserializer.finalize, List.nil_append, List.length_nil,
    Nat.zero_add]
  rw [finalizeSegments_eq E _ (by omega) ps 0 (headLen ps) (headLen ps) (by omega) (by omega)]
  simp only [Res.ok_bind]
  rw [if_neg (by omega), if_neg (by omega)]

/-- The part of a struct read so far: an offset word or the bytes of a fixed-size field. -/
inductive Item where
  | off (o : Nat)
  | fix (b : Bytes)

/-- The bytes of an item. -/
def Item.bytes : Item → Bytes
  | .off o => leBytes 4 o
  | .fix b => b

/-- The items have the given shape and the offsets fit in 32 bits. -/
def ItemsShape : List Item → Shape → Prop
  | [], [] => True
  | .off o :: its, (true, _) :: sh => o < 2 ^ 32 ∧ ItemsShape its sh
  | .fix b :: its, (false, s) :: sh => b.length = s ∧ ItemsShape its sh
  | _, _ => False

/-- The segments recorded for items starting at `T`. -/
def segsI : Nat → List Item → List Segment
  | _, [] => []
  | T, .off _ :: its => .offset :: segsI (T + 4) its
  | T, .fix b :: its => .fixed T (T + b.length) :: segsI (T + b.length) its

/-- The offsets among the items. -/
def offsI : List Item → List Nat
  | [] => []
  | .off o :: its => o :: offsI its
  | .fix _ :: its => offsI its

theorem offsI_lt : ∀ (its : List Item) (sh : Shape), ItemsShape its sh → ∀ o ∈ offsI its, o < 2 ^ 32
  | [], _, _, _, h => nomatch h
  | .off o :: its, (true, _) :: sh, hs, x, hx => by
    rcases List.mem_cons.mp hx with rfl | hx
    · exact hs.1
    · exact offsI_lt its sh hs.2 x hx
  | .fix _ :: its, (false, _) :: sh, hs, x, hx => offsI_lt its sh hs.2 x hx
  | .off _ :: _, [], h, _, _ => h.elim
  | .fix _ :: _, [], h, _, _ => h.elim
  | .off _ :: _, (false, _) :: _, h, _, _ => h.elim
  | .fix _ :: _, (true, _) :: _, h, _, _ => h.elim

theorem drop_eq_getRange {b w : Bytes} {s e : Nat} (h : getRange b s e = some w) :
    s ≤ e ∧ e ≤ b.length ∧ w.length = e - s ∧ b.drop s = w ++ b.drop e := by
  unfold getRange at h
  split at h
  · rename_i hc
    injection h with h
    subst h
    refine ⟨hc.1, hc.2, by simp; omega, ?_⟩
    have : b.drop e = (b.drop s).drop (e - s) := by rw [List.drop_drop]; congr 1; omega
    rw [this, List.take_append_drop]
  · cases h

theorem checkOffset_ok {E : Env} {len next : Nat} {prev : Option Nat}
    (h : checkOffset E len prev next = .ok ()) : ∀ o, prev = some o → o ≤ next := by
  intro o ho
  subst ho
  simp only [checkOffset] at h
  split at h
  · cases h
  · omega

theorem parseShape_sound (E : Env) (enc : Bytes) (hlen : enc.length < 2 ^ 63) :
    ∀ (sh : Shape) (S : List Segment) (O : List Nat) (T : Nat) (d : ContainerDeserializer),
      T ≤ enc.length → T + shapeLen sh < 2 ^ 64 →
      parseShape E enc sh ⟨S, O, T⟩ = .ok d →
      ∃ its : List Item, ItemsShape its sh ∧
        enc.drop T = (its.flatMap Item.bytes) ++ enc.drop d.totalBytesRead ∧
        d.totalBytesRead = T + (its.flatMap Item.bytes).length ∧ d.totalBytesRead ≤ enc.length ∧
        d.segments = S ++ segsI T its ∧ d.offsets = O ++ offsI its ∧
        (List.IsChain (· ≤ ·) O → List.IsChain (· ≤ ·) d.offsets)
  | [], S, O, T, d, hT, hs, h => by
    simp only [parseShape] at h
    injection h with h
    subst h
    exact ⟨[], trivial, by simp, by simp, hT, by simp [segsI], by simp [offsI], id⟩
  | (true, s) :: sh, S, O, T, d, hT, hs, h => by
    simp only [shapeLen, List.map_cons, List.sum_cons, if_true] at hs
    simp only [parseShape, ContainerDeserializer.parse, if_true, Res.bind_eq_ok] at h
    obtain ⟨d1, h1, h2⟩ := h
    obtain ⟨prov, h3, h1⟩ := h1
    split at h1
    · cases h1
    · rename_i w hw
      obtain ⟨_, g2, g3, g4⟩ := drop_eq_getRange hw
      have hw4 : w.length = 4 := by omega
      rw [deserializeU32_ok hw4] at h1
      simp only [Res.ok_bind, Res.bind_eq_ok] at h1
      obtain ⟨_, h4, h1⟩ := h1
      injection h1 with h1
      subst h1
      obtain ⟨its, i1, i2, i3, i4, i5, i6, i7⟩ := parseShape_sound E enc hlen sh _ _ _ d g2
        (by simp only [shapeLen]; omega) h2
      have hlt := fromLeBytes_lt w
      rw [hw4] at hlt
      have hwb : leBytes 4 (fromLeBytes w) = w := by rw [← hw4]; exact leBytes_fromLeBytes w
      refine ⟨.off (fromLeBytes w) :: its, ⟨by simpa using hlt, i1⟩, ?_, ?_, i4, ?_, ?_, ?_⟩
      · simp only [List.flatMap_cons, Item.bytes, hwb]
        rw [g4, i2, List.append_assoc]
      · simp only [List.flatMap_cons, Item.bytes, hwb, List.length_append, hw4]; omega
      · rw [i5]; simp [segsI]
      · rw [i6]; simp [offsI]
      · intro hc
        apply i7
        have := checkOffset_ok h4
        rw [List.isChain_append]
        refine ⟨hc, by simp, ?_⟩
        intro x hx y hy
        simp at hy
        subst hy
        exact this x hx
  | (false, s) :: sh, S, O, T, d, hT, hs, h => by
    simp only [shapeLen, List.map_cons, List.sum_cons, Bool.false_eq_true, if_false] at hs
    have hus : usizeMod = 2 ^ 64 := rfl
    have hadd : E.add T s = .ok (T + s) := Env.add_eq_ok (by omega)
    simp only [parseShape, ContainerDeserializer.parse, Bool.false_eq_true, if_false,
      Res.lift_ok, Res.ok_bind, hadd] at h
    rw [if_neg (by omega)] at h
    split at h
    · simp only [Res.bind_eq_ok] at h
      obtain ⟨d1, ⟨_, _, h1⟩, _⟩ := h
      cases h1
    · rename_i hle
      simp only [Res.ok_bind] at h
      obtain ⟨its, i1, i2, i3, i4, i5, i6, i7⟩ := parseShape_sound E enc hlen sh _ _ _ d
        (by omega) (by simp only [shapeLen]; omega) h
      have hbl : ((enc.drop T).take s).length = s := by simp; omega
      refine ⟨.fix ((enc.drop T).take s) :: its, ⟨hbl, i1⟩, ?_, ?_, i4, ?_, ?_, ?_⟩
      · simp only [List.flatMap_cons, Item.bytes]
        rw [List.append_assoc, ← i2]
        have : enc.drop (T + s) = (enc.drop T).drop s := by rw [List.drop_drop]
        rw [this, List.take_append_drop]
      · simp only [List.flatMap_cons, Item.bytes, List.length_append, hbl]; omega
      · rw [i5]; simp only [segsI, hbl]; simp
      · rw [i6]; simp [offsI]
      · exact i7

/-- The pieces found by the container decoder. -/
def piecesI (enc : Bytes) : List Item → List Nat → List Piece
  | .fix b :: its, offs => (false, b) :: piecesI enc its offs
  | .off _ :: its, o :: n :: offs =>
    (true, (enc.drop o).take (n - o)) :: piecesI enc its (n :: offs)
  | _, _ => []

theorem hasShape_piecesI (enc : Bytes) : ∀ (its : List Item) (sh : Shape) (e : Nat),
    ItemsShape its sh → HasShape (piecesI enc its (offsI its ++ [e])) sh
  | [], [], _, _ => by simp [piecesI, HasShape]
  | .off o :: its, (true, s) :: sh, e, h => by
    have hn : ∃ n r, offsI its ++ [e] = n :: r := by
      cases h : offsI its <;> simp
    obtain ⟨n, r, hr⟩ := hn
    have := hasShape_piecesI enc its sh e h.2
    simp only [offsI, List.cons_append]
    rw [hr] at this ⊢
    exact ⟨rfl, by simp, this⟩
  | .fix b :: its, (false, s) :: sh, e, h => by
    have := hasShape_piecesI enc its sh e h.2
    simp only [offsI, piecesI]
    exact ⟨rfl, fun _ => h.1, this⟩
  | .off _ :: _, [], _, h => h.elim
  | .fix _ :: _, [], _, h => h.elim
  | .off _ :: _, (false, _) :: _, _, h => h.elim
  | .fix _ :: _, (true, _) :: _, _, h => h.elim
  | [], _ :: _, _, h => by simp [ItemsShape] at h

theorem finalizeSegments_sound (E : Env) (enc : Bytes) (hlen : enc.length < 2 ^ 63) :
    ∀ (its : List Item) (T total o : Nat) (rest spans : List Nat) (total' : Nat),
      offsI its ++ [enc.length] = o :: rest → List.IsChain (· ≤ ·) (o :: rest) →
      o ≤ enc.length → total + (enc.length - o) < 2 ^ 64 →
      finalizeSegments E enc.length (segsI T its) (o :: rest) total = .ok (spans, total') →
      total' = total + (enc.length - o) ∧
        spans = spansF T o (piecesI enc its (o :: rest)) ∧
        heads o (piecesI enc its (o :: rest)) = its.flatMap Item.bytes ∧
        tails (piecesI enc its (o :: rest)) = enc.drop o ∧
        starts o (piecesI enc its (o :: rest)) = offsI its
  | [], T, total, o, rest, spans, total', h1, h2, h3, h4, h => by
    simp only [offsI, List.nil_append, List.cons.injEq] at h1
    obtain ⟨rfl, rfl⟩ := h1
    simp only [segsI, finalizeSegments] at h
    injection h with h
    injection h with h5 h6
    subst h5 h6
    simp [piecesI, spansF, heads, tails, starts, offsI]
  | .fix b :: its, T, total, o, rest, spans, total', h1, h2, h3, h4, h => by
    simp only [offsI] at h1
    simp only [segsI, finalizeSegments, Res.bind_eq_ok] at h
    obtain ⟨⟨sp, t⟩, h5, h6⟩ := h
    injection h6 with h6
    injection h6 with h7 h8
    obtain ⟨i1, i2, i3, i4, i5⟩ := finalizeSegments_sound E enc hlen its _ _ _ _ _ _ h1 h2 h3 h4 h5
    refine ⟨by rw [← h8]; exact i1, ?_, ?_, ?_, by simp only [piecesI, starts, offsI, i5]⟩
    · simp only [piecesI, spansF]; rw [← h7, i2]
    · simp only [piecesI, heads, i3, List.flatMap_cons, Item.bytes]
    · simp only [piecesI, tails_cons_false, i4]
  | .off o' :: its, T, total, o, rest, spans, total', h1, h2, h3, h4, h => by
    simp only [offsI, List.cons_append, List.cons.injEq] at h1
    obtain ⟨rfl, h1⟩ := h1
    have hn : ∃ n r, rest = n :: r := by
      rw [← h1]; cases h : offsI its <;> simp
    obtain ⟨n, r, rfl⟩ := hn
    rw [List.isChain_cons_cons] at h2
    simp only [segsI, finalizeSegments, List.getElem?_cons_succ, List.getElem?_cons_zero,
      List.drop_succ_cons, List.drop_zero] at h
    rw [if_neg (by omega)] at h
    split at h
    · cases h
    · rename_i hn
      have hus : usizeMod = 2 ^ 64 := rfl
      rw [Env.sub_eq_ok h2.1] at h
      simp only [Res.lift_ok, Res.ok_bind] at h
      rw [Env.add_eq_ok (by omega)] at h
      simp only [Res.lift_ok, Res.ok_bind, Res.bind_eq_ok] at h
      obtain ⟨⟨sp, t⟩, h5, h6⟩ := h
      injection h6 with h6
      injection h6 with h7 h8
      have hno := h2.1
      obtain ⟨i1, i2, i3, i4, i5⟩ := finalizeSegments_sound E enc hlen its _ _ _ _ _ _ h1 h2.2
        (by omega) (by omega) h5
      have hpl : ((enc.drop o').take (n - o')).length = n - o' := by simp; omega
      have hon : o' + (n - o') = n := by omega
      refine ⟨by rw [← h8, i1]; omega, ?_, ?_, ?_, by
        simp only [piecesI, starts, offsI, hpl, hon, i5]⟩
      · simp only [piecesI, spansF, hpl, hon]; rw [← h7, i2]
      · simp only [piecesI, heads, List.flatMap_cons, Item.bytes, hpl, hon, i3]
      · simp only [piecesI, tails_cons_true, i4]
        have : enc.drop n = (enc.drop o').drop (n - o') := by rw [List.drop_drop]; congr 1; omega
        rw [this, List.take_append_drop]

/-- An input accepted by the container decoder is the encoding of the pieces it found. -/
theorem container_sound (E : Env) (enc : Bytes) (hlen : enc.length < 2 ^ 63) (sh : Shape)
    (hsh : shapeLen sh < 2 ^ 64) (spans : List Nat)
    (h : (do let d ← parseShape E enc sh {}
             d.finalize E enc) = .ok spans) :
    ∃ ps : List Piece, HasShape ps sh ∧ enc = assemble ps ∧ spans = spansF 0 (headLen ps) ps ∧
      Addressed ps := by
  simp only [Res.bind_eq_ok] at h
  obtain ⟨d, h1, h2⟩ := h
  obtain ⟨its, i1, i2, i3, i4, i5, i6, i7⟩ := parseShape_sound E enc hlen sh [] [] 0 d (by omega)
    (by omega) h1
  simp only [List.drop_zero, Nat.zero_add, List.nil_append] at i2 i3 i5 i6
  simp only [ContainerDeserializer.finalize, Res.bind_eq_ok] at h2
  obtain ⟨⟨sp, total⟩, h3, h4⟩ := h2
  simp only at h4
  split at h4
  · cases h4
  · split at h4
    · cases h4
    · rename_i ht1 ht2
      injection h4 with h4
      subst h4
      have hn : ∃ n r, offsI its ++ [enc.length] = n :: r := by
        cases h : offsI its <;> simp
      obtain ⟨o, rest, ho⟩ := hn
      have hchain := i7 (by simp)
      rw [i5, i6, ho] at h3
      -- the first offset is within the input
      have hole : o ≤ enc.length ∧ List.IsChain (· ≤ ·) (o :: rest) := by
        have key : ∀ (its : List Item) (T total : Nat) (o : Nat) (rest : List Nat) r,
            offsI its ++ [enc.length] = o :: rest → List.IsChain (· ≤ ·) (offsI its) →
            finalizeSegments E enc.length (segsI T its) (o :: rest) total = .ok r →
            o ≤ enc.length ∧ List.IsChain (· ≤ ·) (o :: rest) := by
          intro its
          induction its with
          | nil =>
            intro T total o rest r h1 _ _
            simp only [offsI, List.nil_append, List.cons.injEq] at h1
            obtain ⟨rfl, rfl⟩ := h1
            simp
          | cons it its ih =>
            intro T total o rest r h1 h2 h3
            cases it with
            | fix b =>
              simp only [offsI] at h1 h2
              simp only [segsI, finalizeSegments, Res.bind_eq_ok] at h3
              obtain ⟨a, h5, h6⟩ := h3
              exact ih _ _ _ _ _ h1 h2 h5
            | off o' =>
              simp only [offsI, List.cons_append, List.cons.injEq] at h1 h2
              obtain ⟨rfl, h1⟩ := h1
              have hn : ∃ n r, rest = n :: r := by
                rw [← h1]; cases h : offsI its <;> simp
              obtain ⟨n, r, rfl⟩ := hn
              simp only [segsI, finalizeSegments, List.getElem?_cons_succ, List.getElem?_cons_zero,
                List.drop_succ_cons, List.drop_zero] at h3
              split at h3
              · cases h3
              · split at h3
                · cases h3
                · simp only [Res.bind_eq_ok] at h3
                  obtain ⟨_, _, _, _, a, h5, _⟩ := h3
                  have := ih _ _ _ _ _ h1 h2.tail h5
                  refine ⟨by omega, ?_⟩
                  rw [List.isChain_cons_cons]
                  refine ⟨?_, this.2⟩
                  cases hi : offsI its with
                  | nil =>
                    rw [hi] at h1
                    simp only [List.nil_append, List.cons.injEq] at h1
                    omega
                  | cons m ms =>
                    rw [hi] at h1 h2
                    simp only [List.cons_append, List.cons.injEq] at h1
                    rw [List.isChain_cons_cons] at h2
                    omega
        exact key its 0 d.totalBytesRead o rest _ ho (by rw [← i6]; exact hchain) h3
      obtain ⟨f1, f2, f3, f4, f5⟩ := finalizeSegments_sound E enc hlen its 0 d.totalBytesRead o rest _ _
        ho hole.2 hole.1 (by omega) h3
      have hoT : o = d.totalBytesRead := by omega
      have hsp := hasShape_piecesI enc its sh enc.length i1
      rw [ho] at hsp
      refine ⟨piecesI enc its (o :: rest), hsp, ?_, ?_, ?_⟩
      · have hh : headLen (piecesI enc its (o :: rest)) = o := by
          rw [← heads_length o, f3, hoT, i3]
        rw [assemble, hh, f3, f4, hoT, ← i2]
      · have hh : headLen (piecesI enc its (o :: rest)) = o := by
          rw [← heads_length o, f3, hoT, i3]
        rw [hh, f2]
      · have hh : headLen (piecesI enc its (o :: rest)) = o := by
          rw [← heads_length o, f3, hoT, i3]
        rw [Addressed, hh, f5]
        exact offsI_lt its sh i1

end Ssz
