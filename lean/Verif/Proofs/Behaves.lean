import Verif.Spec.Behaves
import Verif.Proofs.Reads
import Verif.Proofs.Crash

/-!
# Crashes of types built from parts of any kind
-/

namespace Ssz

open Spec

variable {α : Type}

theorem Spec.Behaves.reads_iff {T : Serializable α} {o : Outcome α} (h : Behaves T o) {b : Bytes}
    (hb : b.length < 2 ^ 63) : (∃ v, T.deserialize b = .ok v) ↔ o.reads b :=
  exists_congr fun v => h.deserialize b v hb

theorem Spec.Behaves.err_iff {T : Serializable α} {o : Outcome α} (h : Behaves T o) {b : Bytes}
    (hb : b.length < 2 ^ 63) : (∃ e, T.deserialize b = .err e) ↔ ¬ o.reads b ∧ ¬ o.crash b := by
  rw [← h.reads_iff hb, ← h.panic b hb]
  cases T.deserialize b <;> simp

theorem mapList_panic {T : Serializable α} {A P : Bytes → Prop} : ∀ (ps : List Bytes),
    (∀ p ∈ ps, ((∃ v, T.deserialize p = .ok v) ↔ A p)) →
    (∀ p ∈ ps, (T.deserialize p = .panic ↔ P p)) →
    (Res.mapList T.deserialize ps = .panic ↔ FirstCrash A P ps)
  | [], _, _ => ⟨fun h => (nomatch h), fun h => h.elim⟩
  | p :: ps, hA, hP => by
    have ih := mapList_panic ps (fun q hq => hA q (by simp [hq])) (fun q hq => hP q (by simp [hq]))
    have h1 := hA p (by simp)
    have h2 := hP p (by simp)
    simp only [FirstCrash, ← h1, ← h2, ← ih, Res.mapList]
    cases T.deserialize p with
    | ok v => cases Res.mapList T.deserialize ps <;> simp
    | err e => simp
    | panic => simp

theorem Spec.Behaves.walk_iff {T : Serializable α} {o : Outcome α} (h : Behaves T o) (E : Env) {b : Bytes}
    (hb : b.length < 2 ^ 63) (hmod : o.var = false → b.length % o.size = 0) :
    deserializeHomogeneousComposite E T b = .panic ↔ o.walk b := by
  unfold deserializeHomogeneousComposite Outcome.walk
  rw [h.isVariableSize]
  cases hv : o.var with
  | true =>
    rw [if_pos rfl, if_pos rfl]
    exact table_panic T o.reads o.crash b (fun p hp => h.reads_iff (by omega))
      (fun p hp => h.panic p (by omega))
  | false =>
    have hm := hmod hv
    have hpos := h.size_pos hv
    rw [if_neg Bool.false_ne_true, if_neg Bool.false_ne_true]
    simp only [deserializeFixedHomogeneousComposite, h.sizeHint, Res.lift_ok, Res.ok_bind]
    rw [if_neg (by omega), hm]
    simp only [beq_self_eq_true, Env.debugAssert_true, Res.lift_ok, Res.ok_bind]
    obtain ⟨c1, c2⟩ := chunksExact_spec hpos b hm
    have hlen : ∀ p ∈ chunksExact o.size b, p.length < 2 ^ 63 := fun p hp => by
      rw [c2 p hp]; exact h.size_lt
    have key := mapList_panic (T := T) (A := o.reads) (P := o.crash) (chunksExact o.size b)
      (fun p hp => h.reads_iff (hlen p hp)) (fun p hp => h.panic p (hlen p hp))
    rw [key]
    refine ⟨fun hc => ⟨_, c1.symm, c2, hc⟩, fun ⟨ps, h1, h2, h3⟩ => ?_⟩
    rw [h1, chunksExact_flatten hpos ps h2]
    exact h3

theorem walk_mod {o : Outcome α} {b : Bytes} (h : o.walk b) (hv : o.var = false) :
    b.length % o.size = 0 := by
  unfold Outcome.walk at h
  rw [hv, if_neg Bool.false_ne_true] at h
  obtain ⟨ps, h1, h2, _⟩ := h
  rw [h1, flatten_length_const _ o.size h2]
  exact Nat.mul_mod_right _ _

theorem Spec.Behaves.list {T : Serializable α} {o : Outcome α} (h : Behaves T o) (E : Env) (n : Nat) :
    Behaves (Serializable.list E T n) (o.list n) where
  toReads := h.toReads.list E n
  panic b hb := by
    refine ⟨fun hp => ?_, fun hp => ?_⟩
    · simp only [Serializable.list] at hp
      rw [Res.bind_eq_panic] at hp
      rcases hp with hp | ⟨_, h1, hp⟩
      · exact absurd hp (checkListLength_ne_panic h.isVariableSize h.sizeHint h.size_pos)
      · rw [Res.bind_eq_panic] at hp
        rcases hp with hp | ⟨ws, h2, hp⟩
        · exact (h.walk_iff E hb (checkListLength_sound h.isVariableSize h.sizeHint h1)).mp hp
        · split at hp
          · cases hp
          · rename_i hw
            simp only [SszList.tryFromVec, if_neg hw] at hp
            cases hp
    · have hp : o.walk b := hp
      simp only [Serializable.list]
      rw [checkListLength_ok h.isVariableSize h.sizeHint fun hv => ⟨h.size_pos hv, walk_mod hp hv⟩,
        Res.ok_bind, (h.walk_iff E hb fun hv => walk_mod hp hv).mpr hp]
      rfl

theorem Spec.Behaves.vector {T : Serializable α} {o : Outcome α} (h : Behaves T o) (E : Env) {n : Nat}
    (hn : 0 < n) (hs : o.size * n < 2 ^ 63) : Behaves (Serializable.vector E T n) (o.vector n) where
  toReads := h.toReads.vector E hn hs
  panic b hb := by
    have hms : n * o.size < usizeMod := by rw [Nat.mul_comm]; exact Nat.lt_trans hs (by decide)
    have hn' : ¬ n = 0 := by omega
    refine ⟨fun hp => ?_, fun ⟨hlen, hp⟩ => ?_⟩
    · simp only [Serializable.vector, if_neg hn'] at hp
      rw [Res.bind_eq_panic] at hp
      rcases hp with hp | ⟨_, h1, hp⟩
      · exact absurd hp (checkVectorLength_ne_panic h.sizeHint hms)
      · have hlen := checkVectorLength_sound h.isVariableSize h.sizeHint hms h1
        rw [Res.bind_eq_panic] at hp
        rcases hp with hp | ⟨ws, h2, hp⟩
        · exact ⟨fun hv => by rw [hlen hv, Nat.mul_comm], (h.walk_iff E hb fun hv => by
            rw [hlen hv]; exact Nat.mul_mod_left _ _).mp hp⟩
        · simp only [SszVector.tryFromVec, if_neg hn'] at hp
          by_cases hw : ws.length = n
          · rw [if_neg (by simpa using hw)] at hp; cases hp
          · rw [if_pos hw] at hp; cases hp
    · simp only [Serializable.vector, if_neg hn']
      rw [checkVectorLength_ok h.isVariableSize h.sizeHint hms fun hv => by
        rw [hlen hv, Nat.mul_comm], Res.ok_bind, (h.walk_iff E hb fun hv => walk_mod hp hv).mpr hp]
      rfl

theorem Spec.Behaves.array {T : Serializable α} {o : Outcome α} (h : Behaves T o) (E : Env) {n : Nat}
    (hn : 0 < n) (hs : o.size * n < 2 ^ 63) : Behaves (Serializable.array E T n) (o.array n) where
  toReads := h.toReads.array E hn hs
  panic b hb := by
    have hms : n * o.size < usizeMod := by rw [Nat.mul_comm]; exact Nat.lt_trans hs (by decide)
    have hn' : ¬ n = 0 := by omega
    refine ⟨fun hp => ?_, fun ⟨hlen, hp⟩ => ?_⟩
    · simp only [Serializable.array, if_neg hn'] at hp
      rw [Res.bind_eq_panic] at hp
      rcases hp with hp | ⟨_, h1, hp⟩
      · exact absurd hp (checkVectorLength_ne_panic h.sizeHint hms)
      · have hlen := checkVectorLength_sound h.isVariableSize h.sizeHint hms h1
        rw [Res.bind_eq_panic] at hp
        rcases hp with hp | ⟨ws, h2, hp⟩
        · exact ⟨fun hv => by rw [hlen hv, Nat.mul_comm], (h.walk_iff E hb fun hv => by
            rw [hlen hv]; exact Nat.mul_mod_left _ _).mp hp⟩
        · split at hp <;> cases hp
    · simp only [Serializable.array, if_neg hn']
      rw [checkVectorLength_ok h.isVariableSize h.sizeHint hms fun hv => by
        rw [hlen hv, Nat.mul_comm], Res.ok_bind, (h.walk_iff E hb fun hv => walk_mod hp hv).mpr hp]
      rfl

theorem Spec.Behaves.option {T : Serializable α} {o : Outcome α} (h : Behaves T o) :
    Behaves (Serializable.option T) o.option where
  toReads := h.toReads.option
  panic b hb := by
    match b, hb with
    | [], _ => exact ⟨fun h => (nomatch h), fun ⟨_, h, _⟩ => nomatch h⟩
    | x :: r, hb =>
      exact option_panic T.deserialize o.crash x r
        (h.panic r (by simp only [List.length_cons] at hb; omega))

theorem Spec.Behaves.newtype {T : SimpleSerialize α} {o : Outcome α} (h : Behaves T.toSerializable o)
    (E : Env) : Behaves (SimpleSerialize.newtype E T).toSerializable o.newtype where
  toReads := h.toReads.newtype E
  panic b hb := by
    refine ⟨fun hp => ?_, fun hp => Res.bind_eq_panic.mpr (.inl ((h.panic b hb).mpr hp))⟩
    rcases Res.bind_eq_panic.mp hp with hp | ⟨_, _, hp⟩
    · exact (h.panic b hb).mp hp
    · cases hp

/-! ## Structs -/

theorem headLeaves_iff (E : Env) (hE : E.debug = true) (enc : Bytes) (hlen : enc.length < 2 ^ 63) :
    ∀ (sh : Shape) (S : List Segment) (O : List Nat) (T : Nat), T ≤ enc.length →
      T + shapeLen sh < 2 ^ 64 →
      (parseShape E enc sh ⟨S, O, T⟩ = .panic ↔
        HeadLeaves enc.length sh O.getLast? (enc.drop T))
  | [], _, _, _, _, _ => by simp [parseShape, HeadLeaves]
  | (true, z) :: rest, S, O, T, hT, hs => by
    have hs : T + (4 + shapeLen rest) < 2 ^ 64 := hs
    simp only [parseShape, ContainerDeserializer.parse, if_true, HeadLeaves]
    rw [Env.sub_eq_ok hT]
    simp only [Res.lift_ok, Res.ok_bind]
    cases hg : getRange enc T (T + 4) with
    | none =>
      simp only [Res.err_bind, reduceCtorEq, false_iff]
      rintro ⟨o, r', _, h, _⟩
      unfold getRange at hg
      rw [if_pos] at hg
      · cases hg
      · refine ⟨by omega, ?_⟩
        have := congrArg List.length h
        rw [List.length_append, leBytes_length, List.length_drop] at this
        omega
    | some w =>
      obtain ⟨_, g2, g3, g4⟩ := drop_eq_getRange hg
      have hw4 : w.length = 4 := by omega
      have hlt := fromLeBytes_lt w
      rw [hw4] at hlt
      have hwb : leBytes 4 (fromLeBytes w) = w := by rw [← hw4]; exact leBytes_fromLeBytes w
      have huniq : ∀ o r', o < 2 ^ 32 → enc.drop T = leBytes 4 o ++ r' →
          o = fromLeBytes w ∧ r' = enc.drop (T + 4) := by
        intro o r' ho h
        rw [g4] at h
        obtain ⟨h1, h2⟩ := List.append_inj h (by rw [hw4, leBytes_length])
        refine ⟨?_, h2.symm⟩
        rw [h1, fromLeBytes_leBytes]
        omega
      simp only
      rw [deserializeU32_ok hw4]
      simp only [Res.ok_bind]
      have ih := headLeaves_iff E hE enc hlen rest (S ++ [.offset]) (O ++ [fromLeBytes w]) (T + 4)
        g2 (by omega)
      rw [List.getLast?_concat] at ih
      cases ho : O.getLast? with
      | none =>
        simp only [checkOffset, Res.ok_bind]
        rw [ih]
        constructor
        · intro h
          exact ⟨fromLeBytes w, enc.drop (T + 4), by simpa using hlt, by rw [hwb]; exact g4, h⟩
        · rintro ⟨o, r', h1, h2, h3⟩
          obtain ⟨rfl, rfl⟩ := huniq o r' h1 h2
          exact h3
      | some p =>
        constructor
        · intro h
          refine ⟨fromLeBytes w, enc.drop (T + 4), by simpa using hlt, by rw [hwb]; exact g4, ?_⟩
          rw [Res.bind_eq_panic] at h
          rcases h with h | ⟨d, h1, h2⟩
          · rw [Res.bind_eq_panic] at h
            rcases h with h | ⟨_, _, h⟩
            · obtain ⟨a, b⟩ := (checkOffset_panic hE _ _ _).mp h
              exact ⟨a, .inl b⟩
            · cases h
          · rw [Res.bind_eq_ok] at h1
            obtain ⟨_, h3, h4⟩ := h1
            injection h4 with h4
            subst h4
            obtain ⟨a, b⟩ := (checkOffset_eq_ok _ _ _).mp h3
            exact ⟨a, .inr (ih.mp h2)⟩
        · rintro ⟨o, r', h1, h2, h3, h4⟩
          obtain ⟨rfl, rfl⟩ := huniq o r' h1 h2
          by_cases hl : enc.length < fromLeBytes w
          · rw [(checkOffset_panic hE _ _ _).mpr ⟨h3, hl⟩]
            rfl
          · rw [(checkOffset_eq_ok _ _ _).mpr ⟨h3, by omega⟩]
            simp only [Res.ok_bind]
            rcases h4 with h4 | h4
            · exact absurd h4 hl
            · exact ih.mpr h4
  | (false, z) :: rest, S, O, T, hT, hs => by
    have hs : T + (z + shapeLen rest) < 2 ^ 64 := hs
    have hus : usizeMod = 2 ^ 64 := rfl
    have hadd : E.add T z = .ok (T + z) := Env.add_eq_ok (by omega)
    simp only [parseShape, ContainerDeserializer.parse, Bool.false_eq_true, if_false,
      Res.lift_ok, Res.ok_bind, hadd, HeadLeaves]
    rw [if_neg (by omega)]
    by_cases hle : enc.length < T + z
    · rw [if_pos hle, Env.sub_eq_ok hT]
      simp only [Res.lift_ok, Res.ok_bind, Res.err_bind, reduceCtorEq, false_iff,
        List.length_drop]
      rintro ⟨h, _⟩
      omega
    · rw [if_neg hle]
      simp only [Res.ok_bind]
      rw [headLeaves_iff E hE enc hlen rest _ _ _ (by omega) (by omega), List.drop_drop]
      constructor
      · intro h; exact ⟨by rw [List.length_drop]; omega, h⟩
      · exact fun h => h.2

theorem hasShape_iff_cut : ∀ (sh : Shape) (ps : List Piece), HasShape ps sh ↔ Cut sh ps
  | [], [] => ⟨fun _ => rfl, fun _ => trivial⟩
  | [], _ :: _ => ⟨fun h => h.elim, fun h => nomatch h⟩
  | _ :: _, [] => ⟨fun h => h.elim, fun ⟨_, _, h, _⟩ => nomatch h⟩
  | (v, z) :: rest, (pv, pb) :: ps => by
    constructor
    · rintro ⟨h1, h2, h3⟩
      subst h1
      exact ⟨pb, ps, rfl, h2, (hasShape_iff_cut rest ps).mp h3⟩
    · rintro ⟨p, qs, h1, h2, h3⟩
      injection h1 with h1 h4
      injection h1 with h1 h5
      subst h1 h4 h5
      exact ⟨rfl, h2, (hasShape_iff_cut rest ps).mpr h3⟩

namespace StructBehaves

theorem sizes_eq : {α : Type} → (ps : StructBehaves α) → ps.sizes = StructReads.shape ps.toReads
  | _, .nil => rfl
  | _, .cons _ _ _ _ rest => congrArg (_ :: ·) (sizes_eq rest)

theorem decodeParts_panic : {α : Type} → (fs : StructBehaves α) → (ps : List Piece) →
    (∀ p ∈ ps, p.2.length < 2 ^ 63) → Cut fs.sizes ps →
    (decodeParts fs.toReads.impls ps = .panic ↔ fs.crashes ps)
  | _, .nil, _, _, _ => ⟨fun h => (nomatch h), fun h => h.elim⟩
  | _, .cons _ _ _ _ _, [], _, h => by obtain ⟨_, _, h, _⟩ := h; cases h
  | _, .cons _ T o h rest, (pv, pb) :: ps, hb, hc => by
    have hp : pb.length < 2 ^ 63 := hb (pv, pb) (by simp)
    obtain ⟨_, _, h0, _, hc⟩ := hc
    injection h0 with h0 h1
    subst h1
    have ih := decodeParts_panic rest ps (fun p hp => hb p (by simp [hp])) hc
    show (T.deserialize pb >>= fun v => decodeParts rest.toReads.impls ps >>= fun vs =>
      (.ok (v, vs) : Res DeError _)) = .panic ↔ o.crash pb ∨ (o.reads pb ∧ rest.crashes ps)
    rw [← ih, ← h.panic pb hp, ← h.reads_iff hp]
    cases T.deserialize pb with
    | ok v => cases decodeParts rest.toReads.impls ps <;> simp
    | err e => simp
    | panic => simp

theorem safe_crashes : {α : Type} → (fs : StructBehaves α) → (ps : List Piece) → fs.Safe → ¬ fs.crashes ps
  | _, .nil, _, _, h => h
  | _, .cons _ _ _ _ _, [], _, h => h
  | _, .cons _ _ _ _ rest, p :: ps, hs, h => by
    rcases h with h | ⟨_, h⟩
    · exact hs.1 _ h
    · exact safe_crashes rest ps hs.2 h

theorem container {α : Type} (E : Env) (ps : StructBehaves α) (hc : 0 < ps.toReads.impls.count)
    (hs : ps.toReads.fixedLen < 2 ^ 63) :
    Behaves (SimpleSerialize.container E ps.toReads.impls).toSerializable (ps.outcome E.debug) where
  toReads := StructReads.container E ps.toReads hc hs
  panic b hb := by
    show (ps.toReads.impls.parseAll E b {} >>= fun d => d.finalize E b >>=
      fun spans => ps.toReads.impls.initFields b spans 0) = .panic ↔
      (E.debug = true ∧ HeadLeaves b.length ps.sizes none b) ∨
      ∃ qs, b = assemble qs ∧ Addressed qs ∧ Cut ps.sizes qs ∧ ps.crashes qs
    rw [StructReads.parseAll_eq E b ps.toReads, sizes_eq]
    have hsl : shapeLen (StructReads.shape ps.toReads) < 2 ^ 64 := by
      rw [StructReads.shapeLen_eq]; exact Nat.lt_trans hs (by decide)
    have hqs : ∀ qs, b = assemble qs → ∀ p ∈ qs, p.2.length < 2 ^ 63 := fun qs h p hp =>
      Nat.lt_of_le_of_lt (piece_length_le hp) (h ▸ hb)
    refine ⟨fun h => ?_, fun h => ?_⟩
    · rw [Res.bind_eq_panic] at h
      rcases h with h | ⟨d, h1, h⟩
      · left
        cases hE : E.debug with
        | false =>
          exact absurd h (parseShape_ne_panic E b hb _ [] [] 0 (by omega) (by omega) (.inl hE))
        | true => exact ⟨rfl, (headLeaves_iff E hE b hb _ [] [] 0 (by omega) (by omega)).mp h⟩
      · right
        rw [Res.bind_eq_panic] at h
        rcases h with h | ⟨spans, h2, h⟩
        · exfalso
          obtain ⟨its, i1, i2, i3, i4, i5, i6, i7⟩ := parseShape_sound E b hb _ [] [] 0 d (by omega)
            (by omega) h1
          simp only [ContainerDeserializer.finalize, Res.bind_eq_panic] at h
          rcases h with h | ⟨⟨sp, total⟩, _, h⟩
          · have hn : ∃ n r, offsI its ++ [b.length] = n :: r := by
              cases h : offsI its <;> simp
            obtain ⟨o, rest, ho⟩ := hn
            simp only [List.nil_append] at i5 i6
            rw [i5, i6, ho] at h
            exact finalizeSegments_ne_panic E b.length its 0 d.totalBytesRead o rest ho
              (by rw [← i6]; exact i7 (by simp)) (by omega) h
          · simp only at h
            split at h
            · cases h
            · split at h <;> cases h
        · obtain ⟨qs, p1, p2, p3, p4⟩ := container_sound E b hb _ hsl spans (by rw [h1]; exact h2)
          have hcut := (hasShape_iff_cut _ qs).mp p1
          have := StructReads.initFields_eq b ps.toReads qs spans [] 0 p1 (by
            rw [p3, p2]; exact spanOk_assemble qs) rfl
          rw [List.nil_append] at this
          rw [this] at h
          exact ⟨qs, p2, p4, hcut, (decodeParts_panic ps qs (hqs qs p2)
            (by rw [sizes_eq]; exact hcut)).mp h⟩
    · rcases h with ⟨hE, h⟩ | ⟨qs, rfl, hA, hcut, h⟩
      · have := (headLeaves_iff E hE b hb _ [] [] 0 (by omega) (by omega)).mpr h
        rw [show ({} : ContainerDeserializer) = ⟨[], [], 0⟩ from rfl, this]
        rfl
      · have hsh := (hasShape_iff_cut _ qs).mpr hcut
        have h4 := container_complete E qs _ hsh hA hb
        rw [Res.bind_eq_ok] at h4
        obtain ⟨d, h5, h6⟩ := h4
        rw [h5, Res.ok_bind, h6, Res.ok_bind]
        exact (StructReads.initFields_eq (assemble qs) ps.toReads qs _ [] 0 hsh (spanOk_assemble qs)
          rfl).trans ((decodeParts_panic ps qs (hqs qs rfl) (by rw [sizes_eq]; exact hcut)).mpr h)

end StructBehaves

/-! ## Enums -/

namespace EnumBehaves

theorem crashAt_lt : {α : Type} → (ps : EnumBehaves α) → (i : Nat) → (b : Bytes) → ps.crashAt i b →
    i < ps.toReads.count
  | _, .nil, _, _, h => h.elim
  | _, .cons _ _ _ _, 0, _, _ => Nat.succ_pos _
  | _, .cons _ _ _ rest, i + 1, b, h => Nat.succ_lt_succ (crashAt_lt rest i b h)

theorem deserialize_panic (x : Byte) (r enc : Bytes) (hr : r.length < 2 ^ 63) : {α : Type} →
    (ps : EnumBehaves α) → (k : Nat) → k + ps.toReads.count ≤ 256 →
    (ps.toReads.impls.variants.deserialize x r enc k = .panic ↔
      ∃ i, x = BitVec.ofNat 8 (k + i) ∧ ps.crashAt i r)
  | _, .nil, _, _ => ⟨fun h => (nomatch h), fun ⟨_, _, h⟩ => h.elim⟩
  | _, .cons T o h rest, k, hc => by
    have hc : k + (rest.toReads.count + 1) ≤ 256 := hc
    show (if x = BitVec.ofNat 8 k then (T.deserialize r).map Sum.inl
      else (rest.toReads.impls.variants.deserialize x r enc (k + 1)).map Sum.inr) = _ ↔ _
    have ih := deserialize_panic x r enc hr rest (k + 1) (by omega)
    by_cases hx : x = BitVec.ofNat 8 k
    · rw [if_pos hx, Res.map_eq_panic, h.panic r hr]
      refine ⟨fun hp => ⟨0, hx, hp⟩, fun ⟨i, h1, h2⟩ => ?_⟩
      cases i with
      | zero => exact h2
      | succ i =>
        have := crashAt_lt rest i r h2
        have := ofNat8_inj (a := k) (b := k + (i + 1)) (by omega) (by omega) (hx.symm.trans h1)
        omega
    · rw [if_neg hx, Res.map_eq_panic, ih]
      refine ⟨fun ⟨i, h1, h2⟩ => ⟨i + 1, by rw [h1]; congr 1; omega, h2⟩, fun ⟨i, h1, h2⟩ => ?_⟩
      cases i with
      | zero => exact absurd h1 hx
      | succ i => exact ⟨i, by rw [h1]; congr 1; omega, h2⟩

theorem union {α : Type} (E : Env) (ps : EnumBehaves α) (hc : ps.toReads.count ≤ 256) :
    Behaves (SimpleSerialize.union E ps.toReads.impls.variants).toSerializable ps.union where
  toReads := EnumReads.union E ps.toReads hc
  panic b hb := by
    match b, hb with
    | [], _ => exact ⟨fun h => (nomatch h), fun ⟨_, _, h, _⟩ => (nomatch h)⟩
    | x :: r, hb =>
      have := deserialize_panic x r (x :: r) (by simp only [List.length_cons] at hb; omega) ps 0
        (by omega)
      simp only [Nat.zero_add] at this
      refine this.trans ⟨fun ⟨i, h1, h2⟩ => ⟨i, r, by rw [h1], h2⟩, fun ⟨i, q, h1, h2⟩ => ?_⟩
      injection h1 with h3 h4
      subst h4
      exact ⟨i, h3, h2⟩

theorem unionNone {α : Type} (E : Env) (ps : EnumBehaves α) (hc : ps.toReads.count < 256) :
    Behaves (SimpleSerialize.union E (.unit ps.toReads.impls.variants)).toSerializable ps.unionNone where
  toReads := EnumReads.unionNone E ps.toReads hc
  panic b hb := by
    match b, hb with
    | [], _ => exact ⟨fun h => (nomatch h), fun ⟨_, _, h, _⟩ => (nomatch h)⟩
    | x :: r, hb =>
      have ih := deserialize_panic x r (x :: r) (by simp only [List.length_cons] at hb; omega) ps 1
        (by omega)
      refine unit_panic _ _ 0 x r (ih.trans ⟨fun ⟨i, h1, h2⟩ => ⟨i, r, by rw [h1, Nat.add_comm], h2⟩,
        fun ⟨i, q, h1, h2⟩ => ?_⟩) fun ⟨i, q, h1, h2⟩ h0 => ?_
      · injection h1 with h3 h4
        subst h4
        exact ⟨i, by rw [h3, Nat.add_comm], h2⟩
      · injection h1 with h3 h4
        have := crashAt_lt ps i q h2
        have := ofNat8_inj (a := 0) (b := i + 1) (by omega) (by omega) (h0.symm.trans h3)
        omega

theorem refuse_iff (b : Bytes) (hb : b.length < 2 ^ 63) : {α : Type} → (ps : EnumBehaves α) →
    (ps.toReads.Reject b ↔ ps.Refuse b)
  | _, .nil => Iff.rfl
  | _, .cons T o h rest => by
    show (∃ e, T.deserialize b = .err e) ∧ rest.toReads.Reject b ↔ _
    rw [refuse_iff b hb rest, h.err_iff hb, and_assoc]
    rfl

theorem body_panic (b : Bytes) (hb : b.length < 2 ^ 63) : {α : Type} → (ps : EnumBehaves α) →
    (ps.toReads.impls.transparent.deserializeBody b = .panic ↔ ps.lastCrash b)
  | _, .nil => ⟨fun h => (nomatch h), fun h => h.elim⟩
  | _, .cons T o h rest => by
    have ih := body_panic b hb rest
    have hj := (EnumReads.body_reject b rest.toReads).trans (refuse_iff b hb rest)
    simp only [Spec.EnumBehaves.lastCrash, ← ih, ← hj, ← h.panic b hb]
    simp only [Spec.EnumBehaves.toReads, Spec.EnumReads.impls, PayloadImpls.transparent,
      TransparentImpls.deserializeBody]
    cases rest.toReads.impls.transparent.deserializeBody b with
    | ok v => simp
    | panic => simp
    | err e =>
      cases T.deserialize b with
      | ok v => simp
      | panic => simp
      | err e => simp

theorem transparent {α : Type} (E : Env) (ps : EnumBehaves α) :
    Behaves (SimpleSerialize.transparent E ps.toReads.impls).toSerializable ps.transparent where
  toReads := EnumReads.transparent E ps.toReads
  panic b hb := by
    show (if b.isEmpty then .err (.expectedFurtherInput 0 1)
      else ps.toReads.impls.transparent.deserializeBody b) = .panic ↔ b ≠ [] ∧ _
    cases b with
    | nil => simp
    | cons x r => simpa using body_panic (x :: r) hb ps

end EnumBehaves

/-! ## The types of the crate -/

theorem impl_behaves (E : Env) (t : Ty) (hl : Legal t) (hf : Fits t) :
    Behaves (t.impl E).toSerializable ⟨⟨isVar t, fixedLen t, Accepts t⟩, Crashes E.debug t⟩ where
  toReads := impl_reads E t hl hf
  panic b hb := panic_iff E t b hl hf hb

end Ssz
