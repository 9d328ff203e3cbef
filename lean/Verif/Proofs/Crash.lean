import Verif.Proofs.Accept

/-!
# Decoding panics exactly on `Spec.Crashes`
-/

namespace Ssz

open Spec

theorem slice_eq_panic {α : Type} {xs : List α} {i j : Nat} :
    (slice (ε := DeError) xs i j = .panic) ↔ ¬ (i ≤ j ∧ j ≤ xs.length) := by
  unfold slice
  split <;> simp_all

theorem spans_panic {α : Type} (T : Serializable α) (A P : Bytes → Prop) (b : Bytes)
    (hA : ∀ p : Bytes, p.length ≤ b.length → ((∃ v, T.deserialize p = .ok v) ↔ A p))
    (hP : ∀ p : Bytes, p.length ≤ b.length → (T.deserialize p = .panic ↔ P p)) :
    ∀ os : List Nat, deserializeSpans T b os = .panic ↔ SpansCrash A P b os
  | [] => by simp [deserializeSpans, SpansCrash]
  | [_] => by simp [deserializeSpans, SpansCrash]
  | o :: n :: rest => by
    have ih := spans_panic T A P b hA hP (n :: rest)
    simp only [deserializeSpans, SpansCrash]
    by_cases hon : o > n
    · rw [if_pos hon]
      simp only [reduceCtorEq, false_iff]
      omega
    · rw [if_neg hon]
      by_cases hn : b.length < n
      · rw [show slice b o n = .panic from slice_eq_panic.mpr (by omega)]
        simp only [Res.panic_bind, true_iff]
        exact ⟨by omega, .inl hn⟩
      · have hs : slice (ε := DeError) b o n = .ok ((b.drop o).take (n - o)) := by
          rw [slice_eq_ok]; exact ⟨by omega, by omega, rfl⟩
        have hl : ((b.drop o).take (n - o)).length ≤ b.length := by simp; omega
        rw [hs]
        simp only [Res.ok_bind, Res.bind_eq_panic, reduceCtorEq, and_false, exists_false, or_false,
          hP _ hl, ih, ← hA _ hl]
        constructor
        · rintro (h | ⟨v, h1, h2⟩)
          · exact ⟨by omega, .inr (.inl h)⟩
          · exact ⟨by omega, .inr (.inr ⟨⟨v, h1⟩, h2⟩)⟩
        · rintro ⟨_, h | h | ⟨⟨v, h1⟩, h2⟩⟩
          · exact absurd h hn
          · exact .inl h
          · exact .inr ⟨v, h1, h2⟩

theorem table_panic {α : Type} (T : Serializable α) (A P : Bytes → Prop) (b : Bytes)
    (hA : ∀ p : Bytes, p.length ≤ b.length → ((∃ v, T.deserialize p = .ok v) ↔ A p))
    (hP : ∀ p : Bytes, p.length ≤ b.length → (T.deserialize p = .panic ↔ P p)) :
    deserializeVariableHomogeneousComposite T b = .panic ↔ TableCrash A P b := by
  have key := spans_panic T A P b hA hP
  constructor
  · intro h
    unfold deserializeVariableHomogeneousComposite at h
    split at h
    · cases h
    · split at h
      · cases h
      · rename_i hb word hw
        obtain ⟨_, h4, hwl, hd⟩ := drop_eq_getRange hw
        rw [deserializeU32_ok (by omega)] at h
        simp only [Res.ok_bind] at h
        split at h
        · cases h
        · split at h
          · cases h
          · rename_i hle hmod
            rw [show slice b 0 (fromLeBytes word) = .ok (b.take (fromLeBytes word)) by
              rw [slice_eq_ok]; exact ⟨by omega, by omega, by simp⟩] at h
            simp only [Res.ok_bind] at h
            have hhl : (b.take (fromLeBytes word)).length = fromLeBytes word := by simp; omega
            obtain ⟨c1, c2⟩ := chunksExact_spec (s := 4) (by omega) (b.take (fromLeBytes word))
              (by rw [hhl]; omega)
            rw [mapList_u32 _ c2] at h
            simp only [Res.ok_bind] at h
            rw [key] at h
            have hcl := flatten_length_const _ 4 c2
            rw [c1, hhl] at hcl
            have hw2 : (chunksExact 4 (b.take (fromLeBytes word))).map (leBytes 4 ∘ fromLeBytes) =
                chunksExact 4 (b.take (fromLeBytes word)) := by
              conv => rhs; rw [← List.map_id (chunksExact 4 _)]
              apply List.map_congr_left
              intro x hx
              have hx4 := c2 x hx
              simp only [Function.comp, id]
              rw [← hx4, leBytes_fromLeBytes]
            refine ⟨_, b.drop (fromLeBytes word), ?_, ?_, ?_, h⟩
            · rw [List.flatMap_map, List.flatMap_def]
              show b = (List.map (leBytes 4 ∘ fromLeBytes) _).flatten ++ _
              rw [hw2, c1, List.take_append_drop]
            · intro o ho
              obtain ⟨c, hc, rfl⟩ := List.mem_map.mp ho
              have := fromLeBytes_lt c
              rw [c2 c hc] at this
              simpa using this
            · rw [List.length_map, ← hcl]
              match hcs : chunksExact 4 (b.take (fromLeBytes word)), hcl with
              | [], hcl =>
                rw [hcs] at h
                exact h.elim
              | c :: cs, hcl =>
                simp only [List.map_cons, List.head?_cons, Option.some.injEq]
                congr 1
                have e : (b.take (fromLeBytes word)).take 4 = c := by
                  rw [← c1, hcs, List.flatten_cons, List.take_left' (c2 c (by simp [hcs]))]
                rw [← e, List.take_take, Nat.min_eq_left (by simp at hcl; omega)]
                rw [List.drop_zero] at hd
                rw [hd, List.take_left' (by omega)]
  · rintro ⟨table, rest, hb, hlt, hhd, hc⟩
    match table, hhd with
    | o :: os, hhd =>
      simp only [List.head?_cons, Option.some.injEq] at hhd
      have ho := hlt o (by simp)
      have hfl : ((o :: os).flatMap (leBytes 4)).length = o := by
        rw [List.flatMap_def, flatten_length_const _ 4 (by
          intro c hc
          obtain ⟨x, _, rfl⟩ := List.mem_map.mp hc
          exact leBytes_length 4 x), List.length_map, ← hhd]
      have hlen : b.length = o + rest.length := by rw [hb, List.length_append, hfl]
      have h4 : 4 ≤ o := by rw [hhd]; simp; omega
      have hget : getRange b 0 4 = some (leBytes 4 o) := by
        unfold getRange
        rw [if_pos (by omega)]
        have : b = leBytes 4 o ++ (os.flatMap (leBytes 4) ++ rest) := by
          rw [hb, List.flatMap_cons, List.append_assoc]
        rw [this]
        simp only [List.drop_zero, Nat.sub_zero]
        rw [List.take_left' (leBytes_length 4 o)]
      unfold deserializeVariableHomogeneousComposite
      rw [if_neg (by rw [List.isEmpty_iff]; intro h; rw [h] at hlen; simp at hlen; omega), hget]
      simp only
      rw [deserializeU32_leBytes ho]
      simp only [Res.ok_bind]
      rw [if_neg (by omega), if_neg (by rw [hhd]; simp [Nat.mul_mod_right])]
      rw [show slice b 0 o = .ok (((o :: os).map (leBytes 4)).flatten) by
        rw [slice_eq_ok]
        refine ⟨by omega, by omega, ?_⟩
        simp only [List.drop_zero, Nat.sub_zero]
        rw [← List.flatMap_def, hb, List.take_left' hfl]]
      simp only [Res.ok_bind]
      rw [chunksExact_flatten (by omega) _ (by
        intro c hc
        obtain ⟨x, _, rfl⟩ := List.mem_map.mp hc
        exact leBytes_length 4 x), mapList_u32 _ (by
        intro c hc
        obtain ⟨x, _, rfl⟩ := List.mem_map.mp hc
        exact leBytes_length 4 x), List.map_map]
      simp only [Res.ok_bind]
      have : List.map (fromLeBytes ∘ leBytes 4) (o :: os) = o :: os := by
        conv => rhs; rw [← List.map_id (o :: os)]
        apply List.map_congr_left
        intro x hx
        have := hlt x hx
        simp only [Function.comp, id]
        rw [fromLeBytes_leBytes]
        omega
      rw [this]
      exact (key _).mpr hc

theorem checkOffset_panic {E : Env} (hE : E.debug = true) (len p o : Nat) :
    checkOffset E len (some p) o = .panic ↔ p ≤ o ∧ len < o := by
  simp only [checkOffset, Env.sub]
  split
  · simp; omega
  · split
    · simp [show ¬ p ≤ len by omega]; omega
    · split
      · simp [show ¬ o ≤ len by omega]; omega
      · simp; omega

theorem checkOffset_eq_ok {E : Env} (len p o : Nat) :
    checkOffset E len (some p) o = .ok () ↔ p ≤ o ∧ o ≤ len := by
  simp only [checkOffset]
  split
  · simp; omega
  · split
    · simp [Res.bind_eq_ok]; omega
    · split
      · simp [Res.bind_eq_ok]; omega
      · simp; omega

theorem headCrash_iff (E : Env) (hE : E.debug = true) (enc : Bytes) (hlen : enc.length < 2 ^ 63) :
    ∀ (fs : Fields) (S : List Segment) (O : List Nat) (T : Nat), T ≤ enc.length →
      T + fixedLenF fs < 2 ^ 64 →
      (parseShape E enc (shapeF fs) ⟨S, O, T⟩ = .panic ↔
        HeadCrash enc.length fs O.getLast? (enc.drop T))
  | .nil, _, _, _, _, _ => by simp [shapeF, parseShape, HeadCrash]
  | .cons _ t rest, S, O, T, hT, hs => by
    simp only [fixedLenF] at hs
    cases hv : isVar t with
    | true =>
      rw [if_pos hv] at hs
      simp only [shapeF, hv, parseShape, ContainerDeserializer.parse, if_true, HeadCrash]
      rw [Env.sub_eq_ok hT]
      simp only [Res.lift_ok, Res.ok_bind]
      cases hg : getRange enc T (T + 4) with
      | none =>
        simp only [Res.err_bind, reduceCtorEq, false_iff]
        rintro ⟨o, r', _, h, _⟩
        unfold getRange at hg
        rw [if_pos] at hg
        · cases hg
        · refine ⟨by omega, ?_⟩
          have := congrArg List.length h
          rw [List.length_append, leBytes_length, List.length_drop] at this
          omega
      | some w =>
        obtain ⟨_, g2, g3, g4⟩ := drop_eq_getRange hg
        have hw4 : w.length = 4 := by omega
        have hlt := fromLeBytes_lt w
        rw [hw4] at hlt
        have hwb : leBytes 4 (fromLeBytes w) = w := by rw [← hw4]; exact leBytes_fromLeBytes w
        have huniq : ∀ o r', o < 2 ^ 32 → enc.drop T = leBytes 4 o ++ r' →
            o = fromLeBytes w ∧ r' = enc.drop (T + 4) := by
          intro o r' ho h
          rw [g4] at h
          obtain ⟨h1, h2⟩ := List.append_inj h (by rw [hw4, leBytes_length])
          refine ⟨?_, h2.symm⟩
          rw [h1, fromLeBytes_leBytes]
          omega
        simp only
        rw [deserializeU32_ok hw4]
        simp only [Res.ok_bind]
        have ih := headCrash_iff E hE enc hlen rest (S ++ [.offset]) (O ++ [fromLeBytes w]) (T + 4)
          g2 (by omega)
        rw [List.getLast?_concat] at ih
        cases ho : O.getLast? with
        | none =>
          simp only [checkOffset, Res.ok_bind]
          rw [ih]
          constructor
          · intro h
            exact ⟨fromLeBytes w, enc.drop (T + 4), by simpa using hlt, by rw [hwb]; exact g4, h⟩
          · rintro ⟨o, r', h1, h2, h3⟩
            obtain ⟨rfl, rfl⟩ := huniq o r' h1 h2
            exact h3
        | some p =>
          constructor
          · intro h
            refine ⟨fromLeBytes w, enc.drop (T + 4), by simpa using hlt, by rw [hwb]; exact g4, ?_⟩
            rw [Res.bind_eq_panic] at h
            rcases h with h | ⟨d, h1, h2⟩
            · rw [Res.bind_eq_panic] at h
              rcases h with h | ⟨_, _, h⟩
              · obtain ⟨a, b⟩ := (checkOffset_panic hE _ _ _).mp h
                exact ⟨a, .inl b⟩
              · cases h
            · rw [Res.bind_eq_ok] at h1
              obtain ⟨_, h3, h4⟩ := h1
              injection h4 with h4
              subst h4
              obtain ⟨a, b⟩ := (checkOffset_eq_ok _ _ _).mp h3
              exact ⟨a, .inr (ih.mp h2)⟩
          · rintro ⟨o, r', h1, h2, h3, h4⟩
            obtain ⟨rfl, rfl⟩ := huniq o r' h1 h2
            by_cases hl : enc.length < fromLeBytes w
            · rw [(checkOffset_panic hE _ _ _).mpr ⟨h3, hl⟩]
              rfl
            · rw [(checkOffset_eq_ok _ _ _).mpr ⟨h3, by omega⟩]
              simp only [Res.ok_bind]
              rcases h4 with h4 | h4
              · exact absurd h4 hl
              · exact ih.mpr h4
    | false =>
      rw [if_neg (by simp [hv])] at hs
      have hus : usizeMod = 2 ^ 64 := rfl
      have hadd : E.add T (fixedLen t) = .ok (T + fixedLen t) := Env.add_eq_ok (by omega)
      simp only [shapeF, hv, parseShape, ContainerDeserializer.parse, Bool.false_eq_true, if_false,
        Res.lift_ok, Res.ok_bind, hadd, HeadCrash]
      rw [if_neg (by omega)]
      by_cases hle : enc.length < T + fixedLen t
      · rw [if_pos hle, Env.sub_eq_ok hT]
        simp only [Res.lift_ok, Res.ok_bind, Res.err_bind, reduceCtorEq, false_iff,
          List.length_drop]
        rintro ⟨h, _⟩
        omega
      · rw [if_neg hle]
        simp only [Res.ok_bind]
        rw [headCrash_iff E hE enc hlen rest _ _ _ (by omega) (by omega), List.drop_drop]
        constructor
        · intro h; exact ⟨by rw [List.length_drop]; omega, h⟩
        · exact fun h => h.2

theorem hasShape_iff_shaped : ∀ (fs : Fields) (ps : List Piece),
    HasShape ps (shapeF fs) ↔ Shaped fs ps
  | .nil, [] => ⟨fun _ => rfl, fun _ => trivial⟩
  | .nil, _ :: _ => ⟨fun h => h.elim, fun h => nomatch h⟩
  | .cons _ t rest, [] => ⟨fun h => h.elim, fun ⟨_, _, h, _⟩ => nomatch h⟩
  | .cons _ t rest, (pv, pb) :: ps => by
    constructor
    · rintro ⟨h1, h2, h3⟩
      subst h1
      exact ⟨pb, ps, rfl, h2, (hasShape_iff_shaped rest ps).mp h3⟩
    · rintro ⟨p, qs, h1, h2, h3⟩
      injection h1 with h1 h4
      injection h1 with h1 h5
      subst h1 h4 h5
      exact ⟨rfl, h2, (hasShape_iff_shaped rest ps).mpr h3⟩

theorem container_panic (E : Env) (fs : Fields) (hf : FitsF fs) (hl : fixedLenF fs < 2 ^ 64)
    (b : Bytes) (hb : b.length < 2 ^ 63) :
    ((Ty.container fs).impl E).deserialize b = .panic ↔
      (E.debug = true ∧ HeadCrash b.length fs none b) ∨
      ∃ ps, b = assemble ps ∧ Addressed ps ∧ Shaped fs ps ∧ decodePieces E fs ps = .panic := by
  constructor
  · intro h
    by_cases hc : E.debug = true ∧ HeadCrash b.length fs none b
    · exact .inl hc
    · right
      by_contra hps
      push Not at hps
      refine container_ne_panic' E fs hf hl b (by omega) ?_ ?_ h
      · intro hp
        cases hE : E.debug with
        | false =>
          refine parseShape_ne_panic E b (by omega) (shapeF fs) [] [] 0 (by omega) ?_ (.inl hE) hp
          rw [shapeLen_shapeF]; omega
        | true =>
          have := (headCrash_iff E hE b (by omega) fs [] [] 0 (by omega) (by omega)).mp hp
          exact hc ⟨hE, this⟩
      · intro ps h1 h2 hA
        exact hps ps h2 hA ((hasShape_iff_shaped fs ps).mp h1)
  · rintro (⟨hE, h⟩ | ⟨ps, rfl, hA, h1, h2⟩)
    · show ((fs.impls E).parseAll E b {} >>= _) = .panic
      rw [parseAll_eq E _ fs hf]
      have := (headCrash_iff E hE b (by omega) fs [] [] 0 (by omega) (by omega)).mpr h
      rw [show ({} : ContainerDeserializer) = ⟨[], [], 0⟩ from rfl, this]
      rfl
    · exact (container_decode_complete E fs hf ps ((hasShape_iff_shaped fs ps).mpr h1) hA hb).trans h2

theorem collection_panic (E : Env) {t : Ty} (hl : Legal t) (hf : Fits t) (b : Bytes)
    (hb : b.length < 2 ^ 63)
    (hmod : isVar t = false → b.length % fixedLen t = 0)
    (ih : ∀ p : Bytes, p.length < 2 ^ 63 →
      ((t.impl E).deserialize p = .panic ↔ Crashes E.debug t p)) :
    deserializeHomogeneousComposite E (t.impl E).toSerializable b = .panic ↔
      (isVar t = true ∧ TableCrash (fun p => ∃ v, Accepts t p v) (Crashes E.debug t) b) := by
  cases hv : isVar t with
  | true =>
    unfold deserializeHomogeneousComposite
    rw [impl_isVar, hv, if_pos rfl]
    rw [table_panic _ (fun p => ∃ v, Accepts t p v) (Crashes E.debug t) b]
    · simp
    · intro p hp
      exact exists_congr fun v => de_iff E t p v hl hf (by omega)
    · intro p hp
      exact ih p (by omega)
  | false =>
    simp only [Bool.false_eq_true, false_and, iff_false]
    refine fixed_homogeneous_ne_panic E (s := fixedLen t) ((impl_isVar E t).trans hv)
      (impl_sizeHint E t hf) (fixedLen_pos t hl hv) (hmod hv) fun p hp => ?_
    exact de_ne_panic E t p hl hf (by omega) (fixed_facts t hv).2.1 (.inr (fixed_facts t hv).2.2)

theorem option_panic {α : Type} (dec : Bytes → Res DeError α) (P : Bytes → Prop) (x : Byte)
    (r : Bytes) (ih : dec r = .panic ↔ P r) :
    (if x = 0 then
        if (x :: r).length ≠ 1 then .err (DeError.additionalInput (x :: r).length 1) else .ok none
      else if x = 1 then (dec r >>= fun inner => .ok (some inner))
      else .err (.invalidByte x)) = Res.panic ↔ ∃ q, x :: r = 1 :: q ∧ P q := by
  by_cases hx : x = 0
  · subst hx
    cases r <;> simp
  · by_cases hx1 : x = 1
    · subst hx1
      simp [Res.bind_eq_panic, ih]
    · rw [if_neg hx, if_neg hx1]
      simp [show ¬ x = 1#8 from hx1]

theorem unit_panic {β : Type} (dec : Res DeError β) (P : Prop) (i : Nat) (x : Byte)
    (r : Bytes) (ih : dec = .panic ↔ P) (hP : P → x ≠ BitVec.ofNat 8 i) :
    (if x = BitVec.ofNat 8 i then
        if (x :: r).length ≠ 1 then .err (DeError.additionalInput (x :: r).length 1)
        else .ok (Sum.inl ())
      else dec.map Sum.inr) = Res.panic ↔ P := by
  by_cases hx : x = BitVec.ofNat 8 i
  · rw [if_pos hx]
    refine ⟨fun h => ?_, fun h => absurd hx (hP h)⟩
    split at h <;> cases h
  · rw [if_neg hx, Res.map_eq_panic, ih]

theorem data_panic {α β : Type} (dec1 : Bytes → Res DeError α) (dec : Res DeError β)
    (P1 : Bytes → Prop) (P : Prop) (i : Nat) (x : Byte)
    (r : Bytes) (i1 : dec1 r = .panic ↔ P1 r) (ih : dec = .panic ↔ P)
    (hP : P → x ≠ BitVec.ofNat 8 i) :
    (if x = BitVec.ofNat 8 i then (dec1 r).map Sum.inl else dec.map Sum.inr) =
      (Res.panic : Res DeError (α ⊕ β)) ↔ (∃ q, x :: r = BitVec.ofNat 8 i :: q ∧ P1 q) ∨ P := by
  by_cases hx : x = BitVec.ofNat 8 i
  · rw [if_pos hx, Res.map_eq_panic, i1]
    refine ⟨fun h => .inl ⟨r, by rw [hx], h⟩, ?_⟩
    rintro (⟨q, h1, h2⟩ | h)
    · injection h1 with _ h1
      rw [h1]; exact h2
    · exact absurd hx (hP h)
  · rw [if_neg hx, Res.map_eq_panic, ih]
    refine ⟨.inr, ?_⟩
    rintro (⟨q, h1, h2⟩ | h)
    · injection h1 with h1
      exact absurd h1 hx
    · exact h

theorem crashesV_pos (dbg : Bool) : ∀ (vs : Variants) (i : Nat) (x : Byte) (r : Bytes),
    CrashesV dbg vs i (x :: r) → ∃ k, i ≤ k ∧ k < i + countV vs ∧ x = BitVec.ofNat 8 k
  | .nil, _, _, _, h => h.elim
  | .unit vs, i, x, r, h => by
    obtain ⟨k, h1, h2, h3⟩ := crashesV_pos dbg vs (i + 1) x r h
    exact ⟨k, by omega, by simp only [countV]; omega, h3⟩
  | .data _ vs, i, x, r, h => by
    rcases h with ⟨_, h, _⟩ | h
    · injection h with h
      exact ⟨i, by omega, by simp only [countV]; omega, h⟩
    · obtain ⟨k, h1, h2, h3⟩ := crashesV_pos dbg vs (i + 1) x r h
      exact ⟨k, by omega, by simp only [countV]; omega, h3⟩

theorem crashesV_ne (dbg : Bool) : ∀ (vs : Variants) (i : Nat), ¬ CrashesV dbg vs i []
  | .nil, _, h => h
  | .unit vs, i, h => crashesV_ne dbg vs (i + 1) h
  | .data _ vs, i, h => by
    rcases h with ⟨_, h, _⟩ | h
    · cases h
    · exact crashesV_ne dbg vs (i + 1) h

mutual

theorem panic_iff (E : Env) : ∀ (t : Ty) (b : Bytes), Legal t → Fits t →
    b.length < 2 ^ 63 → ((t.impl E).deserialize b = .panic ↔ Crashes E.debug t b)
  | .uint u, b, hl, hf, hb =>
    ⟨fun h => de_ne_panic E (.uint u) b hl hf (by omega) trivial (.inr trivial) h, False.elim⟩
  | .u256, b, hl, hf, hb =>
    ⟨fun h => de_ne_panic E .u256 b hl hf (by omega) trivial (.inr trivial) h, False.elim⟩
  | .bool, b, hl, hf, hb =>
    ⟨fun h => de_ne_panic E .bool b hl hf (by omega) trivial (.inr trivial) h, False.elim⟩
  | .node, b, hl, hf, hb =>
    ⟨fun h => de_ne_panic E .node b hl hf (by omega) trivial (.inr trivial) h, False.elim⟩
  | .bitvector n, b, hl, hf, hb =>
    ⟨fun h => de_ne_panic E (.bitvector n) b hl hf (by omega) trivial (.inr trivial) h, False.elim⟩
  | .bitlist n, b, hl, hf, hb =>
    ⟨fun h => de_ne_panic E (.bitlist n) b hl hf (by omega) trivial (.inr trivial) h, False.elim⟩
  | .array t n, b, hl, hf, hb => by
    have ih := fun p hp => panic_iff E t p hl.2 hf.1 hp
    have hms : n * fixedLen t < usizeMod := by rw [Nat.mul_comm]; exact Nat.lt_trans hf.2 (by decide)
    have hs := impl_sizeHint E t hf.1
    have hn : ¬ n = 0 := by have := hl.1; omega
    refine ⟨fun h => ?_, fun h => ?_⟩
    · have h : (Serializable.array E (t.impl E).toSerializable n).deserialize b = .panic := h
      simp only [Serializable.array, if_neg hn] at h
      rw [Res.bind_eq_panic] at h
      rcases h with h | ⟨_, h1, h⟩
      · exact absurd h (checkVectorLength_ne_panic hs hms)
      · rw [Res.bind_eq_panic] at h
        rcases h with h | ⟨_, h2, h⟩
        · have hlen := checkVectorLength_sound (impl_isVar E t) hs hms h1
          exact (collection_panic E hl.2 hf.1 b hb (fun hv => by
            rw [hlen hv]; exact Nat.mul_mod_left _ _) ih).mp h
        · split at h <;> cases h
    · show (Serializable.array E (t.impl E).toSerializable n).deserialize b = .panic
      simp only [Serializable.array, if_neg hn]
      have hv : ∀ {p : Prop}, isVar t = false → p := fun h' => by
        have := h.1; rw [h'] at this; cases this
      rw [checkVectorLength_ok (impl_isVar E t) hs hms fun h => hv h,
        (collection_panic E hl.2 hf.1 b hb (fun h => hv h) ih).mpr h]
      rfl
  | .vector t n, b, hl, hf, hb => by
    have ih := fun p hp => panic_iff E t p hl.2 hf.1 hp
    have hms : n * fixedLen t < usizeMod := by rw [Nat.mul_comm]; exact Nat.lt_trans hf.2 (by decide)
    have hs := impl_sizeHint E t hf.1
    have hn : ¬ n = 0 := by have := hl.1; omega
    refine ⟨fun h => ?_, fun h => ?_⟩
    · have h : (Serializable.vector E (t.impl E).toSerializable n).deserialize b = .panic := h
      simp only [Serializable.vector, if_neg hn] at h
      rw [Res.bind_eq_panic] at h
      rcases h with h | ⟨_, h1, h⟩
      · exact absurd h (checkVectorLength_ne_panic hs hms)
      · rw [Res.bind_eq_panic] at h
        rcases h with h | ⟨ws, h2, h⟩
        · have hlen := checkVectorLength_sound (impl_isVar E t) hs hms h1
          exact (collection_panic E hl.2 hf.1 b hb (fun hv => by
            rw [hlen hv]; exact Nat.mul_mod_left _ _) ih).mp h
        · simp only [SszVector.tryFromVec, if_neg hn] at h
          by_cases hw : ws.length = n
          · rw [if_neg (by simpa using hw)] at h; cases h
          · rw [if_pos hw] at h; cases h
    · show (Serializable.vector E (t.impl E).toSerializable n).deserialize b = .panic
      simp only [Serializable.vector, if_neg hn]
      have hv : ∀ {p : Prop}, isVar t = false → p := fun h' => by
        have := h.1; rw [h'] at this; cases this
      rw [checkVectorLength_ok (impl_isVar E t) hs hms fun h => hv h,
        (collection_panic E hl.2 hf.1 b hb (fun h => hv h) ih).mpr h]
      rfl
  | .list t n, b, hl, hf, hb => by
    have hl : Legal t := hl
    have hf : Fits t := hf
    have ih := fun p hp => panic_iff E t p hl hf hp
    have hs := impl_sizeHint E t hf
    refine ⟨fun h => ?_, fun h => ?_⟩
    · have h : (Serializable.list E (t.impl E).toSerializable n).deserialize b = .panic := h
      simp only [Serializable.list] at h
      rw [Res.bind_eq_panic] at h
      rcases h with h | ⟨_, h1, h⟩
      · exact absurd h (checkListLength_ne_panic (impl_isVar E t) hs fun hv => fixedLen_pos t hl hv)
      · rw [Res.bind_eq_panic] at h
        rcases h with h | ⟨ws, h2, h⟩
        · exact (collection_panic E hl hf b hb
            (checkListLength_sound (impl_isVar E t) hs h1) ih).mp h
        · split at h
          · cases h
          · rename_i hw
            simp only [SszList.tryFromVec, if_neg hw] at h
            cases h
    · show (Serializable.list E (t.impl E).toSerializable n).deserialize b = .panic
      simp only [Serializable.list]
      have hv : ∀ {p : Prop}, isVar t = false → p := fun h' => by
        have := h.1; rw [h'] at this; cases this
      rw [checkListLength_ok (impl_isVar E t) hs fun h => hv h,
        (collection_panic E hl hf b hb (fun h => hv h) ih).mpr h]
      rfl
  | .option t, b, hl, hf, hb => by
    match b, hb with
    | [], _ => exact ⟨fun h => (nomatch h), fun ⟨_, h, _⟩ => nomatch h⟩
    | x :: r, hb =>
      exact option_panic (t.impl E).deserialize (Crashes E.debug t) x r
        (panic_iff E t r hl hf (by simp only [List.length_cons] at hb; omega))
  | .newtype t, b, hl, hf, hb => by
    have ih := panic_iff E t b hl hf hb
    refine ⟨fun h => ?_, fun h => Res.bind_eq_panic.mpr (.inl (ih.mpr h))⟩
    rcases Res.bind_eq_panic.mp h with h | ⟨_, _, h⟩
    · exact ih.mp h
    · cases h
  | .container fs, b, hl, hf, hb => by
    rw [container_panic E fs hf.1 (Nat.lt_trans hf.2 (by decide)) b hb]
    refine or_congr_right (exists_congr fun ps => and_congr_right fun h => and_congr_right fun _ =>
      and_congr_right fun h2 => decodePieces_panic E fs ps hl.2.2 hf.1 ?_ h2)
    subst h
    exact fun p hp => Nat.lt_of_le_of_lt (piece_length_le hp) hb
  | .union vs, b, hl, hf, hb => by
    match b, hb with
    | [], _ => exact ⟨fun h => (nomatch h), fun h => (crashesV_ne _ vs 0 h).elim⟩
    | x :: r, hb =>
      exact deV_panic E vs 0 x r hl.2 hf (by simp only [List.length_cons] at hb; omega)
        (by have := countV_of_shape hl.1; omega) (unitOk_of_shape hl.1)

theorem decodePieces_panic (E : Env) : ∀ (fs : Fields) (ps : List Piece), LegalF fs →
    FitsF fs → (∀ p ∈ ps, p.2.length < 2 ^ 63) → Shaped fs ps →
    (decodePieces E fs ps = .panic ↔ CrashesF E.debug fs ps)
  | .nil, [], _, _, _, _ => ⟨fun h => (nomatch h), False.elim⟩
  | .nil, _ :: _, _, _, _, h => nomatch h
  | .cons _ t rest, [], _, _, _, h => by obtain ⟨_, _, h, _⟩ := h; cases h
  | .cons _ t rest, (pv, pb) :: ps, hl, hf, hb, hs => by
    have hp := hb (pv, pb) (by simp)
    obtain ⟨p, qs, h0, _, h2⟩ := hs
    injection h0 with h0 h3
    injection h0 with h0 h4
    subst h0 h3 h4
    have i1 := panic_iff E t pb hl.1 hf.1 hp
    have i2 := decodePieces_panic E rest ps hl.2 hf.2 (fun p hp => hb p (by simp [hp])) h2
    simp only [decodePieces, Res.bind_eq_panic, reduceCtorEq, and_false, exists_false, or_false,
      CrashesF, i1, i2]
    refine or_congr_right ?_
    constructor
    · rintro ⟨v, h1, h2⟩
      exact ⟨⟨v, (de_iff E t pb v hl.1 hf.1 hp).mp h1⟩, h2⟩
    · rintro ⟨⟨v, h1⟩, h2⟩
      exact ⟨v, (de_iff E t pb v hl.1 hf.1 hp).mpr h1, h2⟩

theorem deV_panic (E : Env) : ∀ (vs : Variants) (i : Nat) (x : Byte) (r : Bytes),
    LegalV vs → FitsV vs → r.length < 2 ^ 63 → i + countV vs ≤ 256 → UnitOk i vs →
    ((vs.impls E).deserialize x r (x :: r) i = .panic ↔ CrashesV E.debug vs i (x :: r))
  | .nil, _, _, _, _, _, _, _, _ => ⟨fun h => (nomatch h), False.elim⟩
  | .unit vs, i, x, r, hl, hf, hb, hc, hu => by
    obtain ⟨rfl, hu⟩ := hu
    simp only [countV] at hc
    exact unit_panic _ _ 0 x r (deV_panic E vs 1 x r hl hf hb (by omega) (unitOk_of_noUnit hu))
      (fun h h0 => by
        obtain ⟨k, h1, h2, h3⟩ := crashesV_pos _ vs 1 x r h
        have := ofNat8_inj (a := 0) (b := k) (by omega) (by omega) (h0.symm.trans h3)
        omega)
  | .data t vs, i, x, r, hl, hf, hb, hc, hu => by
    simp only [countV] at hc
    exact data_panic _ _ (Crashes E.debug t) _ i x r (panic_iff E t r hl.1 hf.1 hb)
      (deV_panic E vs (i + 1) x r hl.2 hf.2 hb (by omega) (unitOk_of_noUnit hu))
      (fun h h0 => by
        obtain ⟨k, h1, h2, h3⟩ := crashesV_pos _ vs (i + 1) x r h
        have := ofNat8_inj (a := i) (b := k) (by omega) (by omega) (h0.symm.trans h3)
        omega)

end

end Ssz
