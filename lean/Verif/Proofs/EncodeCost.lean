import Verif.Model.EncodeCost
import Verif.Spec.Cost
import Verif.Proofs.SerializeAll
import Verif.Proofs.Size
import Mathlib.Tactic.Ring

/-!
# Costs of encoding
-/

namespace Ssz

open Spec BufC

namespace BufC

variable {α β : Type}

theorem bind_snd {x : BufC α} {f : α → BufC β} {y : BufM SerError α} {g : α → BufM SerError β}
    (hx : ∀ buf, (x buf).2 = y buf) (hf : ∀ a buf, (f a buf).2 = g a buf) (buf : Bytes) :
    ((x >>= f) buf).2 = (y >>= g) buf := by
  show (BufC.bind x f buf).2 = BufM.bind y g buf
  unfold BufC.bind BufM.bind
  rw [← hx buf]
  rcases x buf with ⟨k, buf', r⟩
  cases r with
  | ok a => exact hf a buf'
  | err e => rfl
  | panic => rfl

theorem step_bind_snd (f : Unit → BufC β) (buf : Bytes) : ((step >>= f) buf).2 = (f () buf).2 := rfl

theorem step_bind_fst (f : Unit → BufC β) (buf : Bytes) :
    ((step >>= f) buf).1 = 1 + (f () buf).1 := rfl

/-- `x >>= f` takes what `x` takes and, if it succeeds, what `f` takes. -/
theorem bind_le {x : BufC α} {f : α → BufC β} {buf : Bytes} {n m : Nat} (h1 : (x buf).1 ≤ n)
    (h2 : ∀ a, (x buf).2.2 = .ok a → (f a (x buf).2.1).1 ≤ m) : ((x >>= f) buf).1 ≤ n + m := by
  show (BufC.bind x f buf).1 ≤ _
  unfold BufC.bind
  rcases hx : x buf with ⟨k, buf', r⟩
  rw [hx] at h1 h2
  cases r with
  | ok a =>
    have := h2 a rfl
    dsimp only at *
    omega
  | err e => dsimp only at *; omega
  | panic => dsimp only at *; omega

end BufC

/-! ## The counter changes nothing -/

theorem writePartsC_snd (E : Env) : ∀ (parts : List Part) (running : Nat) (buf : Bytes),
    (writePartsC E running parts buf).2 = writeParts E running parts buf
  | [], _, _ => rfl
  | .fixed data :: rest, running, buf => by
    rw [writePartsC, writeParts, step_bind_snd]
    exact bind_snd (fun _ => rfl) (fun _ _ => writePartsC_snd E rest running _) buf
  | .offset n :: rest, running, buf => by
    rw [writePartsC, writeParts, step_bind_snd]
    refine bind_snd (fun _ => rfl) (fun w _ => ?_) buf
    refine bind_snd (fun _ => rfl) (fun _ _ => ?_) _
    exact bind_snd (fun _ => rfl) (fun r _ => writePartsC_snd E rest r _) _

theorem serializerC_snd (E : Env) (s : Serializer) (buf : Bytes) :
    (s.serializeC E buf).2 = s.serialize E buf := by
  unfold Serializer.serializeC Serializer.serialize
  split
  · rfl
  · refine bind_snd (fun _ => writePartsC_snd E _ _ _) (fun _ _ => ?_) buf
    exact bind_snd (fun _ => rfl) (fun _ _ => rfl) _

theorem withElementC_snd {α : Type} {T : Serializable α} {ser : α → BufC Nat} {x : α}
    (h : ∀ buf, (ser x buf).2 = T.serialize x buf) (s : Serializer) :
    (s.withElementC T ser x).2 = s.withElement T x := by
  unfold Serializer.withElementC Serializer.withElement
  cases hh : (T.sizeHint.lift : Res SerError Nat) with
  | err e => rfl
  | panic => rfl
  | ok c =>
    simp only [Res.ok_bind]
    cases withCapacity (ε := SerError) c with
    | err e => rfl
    | panic => rfl
    | ok u =>
      simp only [Res.ok_bind]
      rw [← h []]
      rcases ser x [] with ⟨k, b, r⟩
      cases r with
      | err e => rfl
      | panic => rfl
      | ok n => dsimp only; split <;> rfl

theorem withElementsC_snd {α : Type} {T : Serializable α} {ser : α → BufC Nat} :
    ∀ (xs : List α) (_ : ∀ x ∈ xs, ∀ buf, (ser x buf).2 = T.serialize x buf) (s : Serializer),
    (s.withElementsC T ser xs).2 = s.withElements T xs
  | [], _, _ => rfl
  | x :: xs, h, s => by
    have h1 := withElementC_snd (h x (by simp)) s
    rw [Serializer.withElementsC, Serializer.withElements, ← h1]
    rcases s.withElementC T ser x with ⟨k, r⟩
    cases r with
    | err e => rfl
    | panic => rfl
    | ok s' => exact withElementsC_snd xs (fun y hy => h y (by simp [hy])) s'

theorem selectorC_snd {α : Type} {T : Serializable α} {x : α} {c : BufC Nat}
    (h : ∀ buf, (c buf).2 = T.serialize x buf) (i : Nat) (buf : Bytes) :
    (serializeWithSelectorC i c buf).2 = serializeWithSelector T i x buf :=
  bind_snd (fun _ => rfl) (fun _ _ => bind_snd h (fun _ _ => rfl) _) buf

theorem collectionC_snd (E : Env) {α : Type} {T : Serializable α} {ser : α → BufC Nat}
    (xs : List α) (h : ∀ x ∈ xs, ∀ buf, (ser x buf).2 = T.serialize x buf) (buf : Bytes) :
    ((ofCount (Serializer.withElementsC T ser {} xs) >>= fun s => s.serializeC E) buf).2 =
      (BufM.ofRes (Serializer.withElements T {} xs) >>= fun s => s.serialize E) buf :=
  bind_snd (fun b => congrArg (Prod.mk b) (withElementsC_snd xs h {}))
    (fun s _ => serializerC_snd E s _) buf

mutual

theorem serC_snd (E : Env) : ∀ (t : Ty) (v : t.Val) (buf : Bytes),
    (t.serC E v buf).2 = (t.impl E).serialize v buf
  | .uint _, _, _ => rfl
  | .u256, _, _ => rfl
  | .bool, _, _ => rfl
  | .node, _, _ => rfl
  | .array t n, v, buf => by
    rw [Ty.serC, step_bind_snd]
    show _ = (Serializable.array E (t.impl E).toSerializable n).serialize v buf
    simp only [Serializable.array]
    split
    · rfl
    · exact collectionC_snd E v.1 (fun x _ => serC_snd E t x) buf
  | .vector t n, v, buf => by
    rw [Ty.serC, step_bind_snd]
    show _ = (Serializable.vector E (t.impl E).toSerializable n).serialize v buf
    simp only [Serializable.vector]
    split
    · rfl
    · exact collectionC_snd E (show List t.Val from v) (fun x _ => serC_snd E t x) buf
  | .list t n, v, buf => by
    rw [Ty.serC, step_bind_snd]
    show _ = (Serializable.list E (t.impl E).toSerializable n).serialize v buf
    simp only [Serializable.list]
    split
    · rfl
    · exact collectionC_snd E (show List t.Val from v) (fun x _ => serC_snd E t x) buf
  | .bitvector _, _, _ => rfl
  | .bitlist _, _, _ => rfl
  | .option t, v, buf => by
    match v with
    | none => rfl
    | some x => exact selectorC_snd (T := (t.impl E).toSerializable) (serC_snd E t x) 1 buf
  | .newtype t, v, buf => serC_snd E t v buf
  | .container fs, v, buf =>
    bind_snd (y := BufM.ofRes ((fs.impls E).withElements v {}))
      (fun b => congrArg (Prod.mk b) (fieldsC_snd E fs v {}))
      (fun s _ => serializerC_snd E s _) buf
  | .union vs, v, buf => serVC_snd E vs 0 v buf

theorem fieldsC_snd (E : Env) : ∀ (fs : Fields) (v : fs.Val) (s : Serializer),
    (fs.withElementsC E v s).2 = (fs.impls E).withElements v s
  | .nil, _, _ => rfl
  | .cons _ t rest, v, s => by
    have h1 := withElementC_snd (T := (t.impl E).toSerializable) (ser := fun x => t.serC E x)
      (x := v.1) (serC_snd E t v.1) s
    show _ = (s.withElement (t.impl E).toSerializable v.1 >>= fun s' =>
      (rest.impls E).withElements v.2 s')
    rw [Fields.withElementsC, ← h1]
    rcases s.withElementC (t.impl E).toSerializable (fun x => t.serC E x) v.1 with ⟨k, r⟩
    cases r with
    | err e => rfl
    | panic => rfl
    | ok s' => exact fieldsC_snd E rest v.2 s'

theorem serVC_snd (E : Env) : ∀ (vs : Variants) (i : Nat) (v : vs.Val) (buf : Bytes),
    (vs.serC E i v buf).2 = (vs.impls E).serialize i v buf
  | .nil, _, v, _ => Empty.elim v
  | .unit _, _, .inl _, _ => rfl
  | .unit rest, i, .inr v, buf => serVC_snd E rest (i + 1) v buf
  | .data t _, i, .inl v, buf =>
    selectorC_snd (T := (t.impl E).toSerializable) (serC_snd E t v) i buf
  | .data _ rest, i, .inr v, buf => serVC_snd E rest (i + 1) v buf

end

/-! ## Counting -/

/-- What a piece costs when the parts are put together: an iteration and its bytes; with an offset, also
a call and four bytes. -/
def partCost (p : Piece) : Nat := if p.1 then 6 + p.2.length else 1 + p.2.length

/-- The bytes of a piece in the encoding. -/
def pieceSize (p : Piece) : Nat := if p.1 then 4 + p.2.length else p.2.length

theorem pieceSize_sum (ps : List Piece) : (ps.map pieceSize).sum = (assemble ps).length := by
  rw [assemble_length]
  induction ps with
  | nil => rfl
  | cons p ps ih =>
    simp only [headLen, tails] at ih ⊢
    simp only [List.map_cons, List.sum_cons, List.flatMap_cons, List.length_append, ih, pieceSize,
      headSize]
    cases p.1 <;> simp <;> omega

theorem appends_le {α : Type} {x : BufM SerError α} {buf buf' : Bytes} {r : Res SerError α} {n : Nat}
    (h : x buf = (buf', r)) (hn : buf'.length ≤ buf.length + n) : (appends x buf).1 ≤ 1 + n := by
  unfold appends
  rw [h]
  dsimp only
  omega

theorem uint_appends_le (u : UintTy) (v : BitVec u.bits) (buf : Bytes) :
    (appends ((Serializable.uint u).serialize v) buf).1 ≤ 1 + u.bits / 8 :=
  appends_le (uint_serialize u v buf) (by simp)

/-- What a part costs in the loop over the parts. -/
def loopCost : Part → Nat
  | .fixed data => 1 + data.length
  | .offset _ => 6

theorem writePartsC_le (E : Env) : ∀ (parts : List Part) (running : Nat) (buf : Bytes),
    (writePartsC E running parts buf).1 ≤ (parts.map loopCost).sum
  | [], _, _ => Nat.le_refl _
  | .fixed data :: rest, running, buf => by
    rw [writePartsC, step_bind_fst, List.map_cons, List.sum_cons, loopCost]
    have := bind_le (x := write data) (f := fun _ => writePartsC E running rest) (buf := buf)
      (Nat.le_refl _) (fun _ _ => writePartsC_le E rest running _)
    have h2 : (write data buf).1 = data.length := rfl
    omega
  | .offset n :: rest, running, buf => by
    rw [writePartsC, step_bind_fst, List.map_cons, List.sum_cons, loopCost]
    refine (by omega : ∀ {a b : Nat}, a ≤ 5 + b → 1 + a ≤ 6 + b) ?_
    refine bind_le (uint_appends_le .u32 _ _) (fun w _ => ?_)
    rw [← Nat.zero_add (List.sum _)]
    refine bind_le (Nat.le_refl 0) (fun _ _ => ?_)
    rw [← Nat.zero_add (List.sum _)]
    exact bind_le (Nat.le_refl 0) (fun r _ => writePartsC_le E rest r _)

theorem ofPieces_cost (ps : List Piece) : ((Serializer.ofPieces ps).parts.map loopCost).sum +
    (Serializer.ofPieces ps).variablePart.length = (ps.map partCost).sum := by
  simp only [Serializer.ofPieces]
  induction ps with
  | nil => rfl
  | cons p ps ih =>
    simp only [tails] at ih ⊢
    simp only [List.map_cons, List.sum_cons, List.flatMap_cons, List.length_append, ← ih, partCost]
    cases p.1 <;> simp [loopCost] <;> omega

theorem serializerC_le (E : Env) (ps : List Piece) (buf : Bytes) :
    ((Serializer.ofPieces ps).serializeC E buf).1 ≤ (ps.map partCost).sum := by
  unfold Serializer.serializeC
  split
  · exact Nat.zero_le _
  · rw [← ofPieces_cost]
    refine bind_le (writePartsC_le E _ _ _) (fun _ _ => ?_)
    exact bind_le (m := 0) (Nat.le_refl _) (fun _ _ => Nat.le_refl 0)

theorem partCost_congr {ps qs : List Piece}
    (h : ps.map (fun p => (p.1, p.2.length)) = qs.map (fun p => (p.1, p.2.length))) :
    (ps.map partCost).sum = (qs.map partCost).sum := by
  have hh : ∀ rs : List Piece, (rs.map partCost).sum =
      ((rs.map fun p => (p.1, p.2.length)).map fun q => if q.1 then 6 + q.2 else 1 + q.2).sum := by
    intro rs
    simp only [List.map_map]
    rfl
  rw [hh ps, hh qs, h]

/-- The bytes that `with_element` moves. -/
def moved (p : Piece) : Nat := if p.1 then p.2.length else 0

theorem withElementC_le {α : Type} {T : Serializable α} {ser : α → BufC Nat} {x : α} {b : Bytes}
    {P : Prop} (hs : HasCapacity T) (h : ∀ buf, (ser x buf).2 = T.serialize x buf)
    (ht : SerTotal T x b.length P) (s : Serializer) :
    (s.withElementC T ser x).1 ≤ 1 + (ser x []).1 + moved (T.isVariableSize, b) := by
  obtain ⟨c, hs, hc⟩ := hs
  unfold Serializer.withElementC
  simp only [hs, Res.lift_ok, Res.ok_bind, withCapacity_ok hc]
  have h0 := h []
  rcases hx : ser x [] with ⟨k, b', r⟩
  rw [hx] at h0
  dsimp only at h0
  rcases ht with ⟨_, bytes, n, hl, ht⟩ | ⟨_, e, junk, ht⟩
  · rw [ht []] at h0
    simp only [Prod.mk.injEq] at h0
    obtain ⟨rfl, rfl⟩ := h0
    dsimp only
    cases hv : T.isVariableSize <;> simp [moved, hl]
  · rw [ht []] at h0
    simp only [Prod.mk.injEq] at h0
    obtain ⟨rfl, rfl⟩ := h0
    dsimp only
    omega

/-- One element: with `s + 2 ≤ 4 * w + k * |b|` for itself. -/
theorem element_budget {s w k : Nat} {p : Piece} (h : s + 2 ≤ 4 * w + k * p.2.length) :
    1 + s + moved p + partCost p ≤ 4 * w + (k + 2) * pieceSize p := by
  unfold moved partCost pieceSize
  rw [Nat.add_mul]
  cases p.1 with
  | false => simp only [Bool.false_eq_true, if_false]; omega
  | true =>
    simp only [if_true]
    rw [Nat.mul_add k 4]
    omega

theorem withElementsC_le {α : Type} {T : Serializable α} {ser : α → BufC Nat} {f : α → Bytes}
    {P : α → Prop} {w : α → Nat} {k : Nat} {var : Bool} (hv : T.isVariableSize = var)
    (hs : HasCapacity T) : ∀ (xs : List α)
    (_ : ∀ x ∈ xs, ∀ buf, (ser x buf).2 = T.serialize x buf)
    (_ : ∀ x ∈ xs, SerTotal T x (f x).length (P x))
    (_ : ∀ x ∈ xs, (ser x []).1 + 2 ≤ 4 * w x + k * (f x).length) (s : Serializer),
    (s.withElementsC T ser xs).1 + ((xs.map fun x => (var, f x)).map partCost).sum ≤
      4 * (xs.map w).sum + (k + 2) * (assemble (xs.map fun x => (var, f x))).length
  | [], _, _, _, _ => Nat.zero_le _
  | x :: xs, h1, h2, h3, s => by
    have hx := withElementC_le hs (h1 x (by simp)) (h2 x (by simp)) s
    rw [hv] at hx
    have hb := element_budget (p := (var, f x)) (h3 x (by simp))
    have ih := fun s' => withElementsC_le hv hs xs (fun y hy => h1 y (by simp [hy]))
      (fun y hy => h2 y (by simp [hy])) (fun y hy => h3 y (by simp [hy])) (w := w) s'
    rw [← pieceSize_sum] at ih ⊢
    simp only [List.map_cons, List.sum_cons, Nat.mul_add, Serializer.withElementsC] at ih ⊢
    have i0 := ih {}
    rcases hr : s.withElementC T ser x with ⟨n, r⟩
    rw [hr] at hx
    cases r with
    | ok s' =>
      have := ih s'
      dsimp only at *
      omega
    | err e => dsimp only at *; omega
    | panic => dsimp only at *; omega

/-- The common tail of `serialize` for composites. -/
theorem finishC_le (E : Env) {n m : Nat} {r : Res SerError Serializer} {ps : List Piece}
    (hr : ∀ s, r = .ok s → ∃ qs : List Piece, qs.map (fun p => (p.1, p.2.length)) =
      ps.map (fun p => (p.1, p.2.length)) ∧ s = Serializer.ofPieces qs)
    (h : n + (ps.map partCost).sum ≤ m) (buf : Bytes) :
    ((ofCount (n, r) >>= fun s => s.serializeC E) buf).1 ≤ m := by
  refine Nat.le_trans (bind_le (Nat.le_refl _) (m := (ps.map partCost).sum) fun s hs => ?_) h
  obtain ⟨qs, hq, rfl⟩ := hr s hs
  rw [← partCost_congr hq]
  exact serializerC_le E qs _

theorem collectionC_le (E : Env) {α : Type} {T : Serializable α} {ser : α → BufC Nat}
    {f : α → Bytes} {P : α → Prop} {w : α → Nat} {k : Nat} {var : Bool}
    (hv : T.isVariableSize = var) (hs : HasCapacity T) (xs : List α)
    (h1 : ∀ x ∈ xs, ∀ buf, (ser x buf).2 = T.serialize x buf)
    (h2 : ∀ x ∈ xs, SerTotal T x (f x).length (P x))
    (h3 : ∀ x ∈ xs, (ser x []).1 + 2 ≤ 4 * w x + k * (f x).length) (buf : Bytes) :
    ((ofCount (Serializer.withElementsC T ser {} xs) >>= fun s => s.serializeC E) buf).1 ≤
      4 * (xs.map w).sum + (k + 2) * (assemble (xs.map fun x => (var, f x))).length := by
  refine finishC_le E (ps := xs.map fun x => (var, f x)) ?_
    (withElementsC_le hv hs xs h1 h2 h3 {}) buf
  intro s hsk
  rw [withElementsC_snd xs h1] at hsk
  rcases Serializer.withElements_total hs h2 [] with ⟨_, qs, hq, he⟩ | ⟨_, e, he⟩
  · refine ⟨qs, by rw [hq, hv]; simp, ?_⟩
    have h : (Serializer.withElements T {} xs) = .ok (Serializer.ofPieces ([] ++ qs)) := he
    rw [h] at hsk
    exact (Res.ok.inj hsk).symm
  · have h : (Serializer.withElements T {} xs) = .err e := he
    rw [h] at hsk
    exact absurd hsk (by simp)

theorem selectorC_le {c : BufC Nat} {m : Nat} (h : ∀ buf, (c buf).1 ≤ m) (i : Nat) (buf : Bytes) :
    (serializeWithSelectorC i c buf).1 ≤ 2 + m :=
  bind_le (uint_appends_le .u8 _ _) fun _ _ => bind_le (m := 0) (h _) fun _ _ => Nat.le_refl 0

mutual

theorem partCount_pos : ∀ (t : Ty) (v : t.Val), 1 ≤ partCount t v
  | .uint _, _ => Nat.le_refl _
  | .u256, _ => Nat.le_refl _
  | .bool, _ => Nat.le_refl _
  | .node, _ => Nat.le_refl _
  | .array t _, v => Nat.le_add_right _ _
  | .vector t _, v => Nat.le_add_right _ _
  | .list t _, v => Nat.le_add_right _ _
  | .bitvector _, _ => Nat.le_refl _
  | .bitlist _, _ => Nat.le_refl _
  | .option t, v => by
    match v with
    | none => exact Nat.le_refl _
    | some x => exact Nat.le_add_right _ _
  | .newtype t, v => Nat.le_add_right _ _
  | .container fs, v => Nat.le_add_right _ _
  | .union vs, v => partCountV_pos vs v

theorem partCountV_pos : ∀ (vs : Variants) (v : vs.Val), 1 ≤ partCountV vs v
  | .nil, v => Empty.elim v
  | .unit _, .inl _ => Nat.le_refl _
  | .unit rest, .inr v => partCountV_pos rest v
  | .data t _, .inl v => Nat.le_add_right _ _
  | .data _ rest, .inr v => partCountV_pos rest v

end

mutual

theorem serC_le (E : Env) : ∀ (t : Ty) (v : t.Val), Legal t → Fits t → Stored t v → ∀ buf : Bytes,
    (t.serC E v buf).1 + 2 ≤ 4 * partCount t v + (1 + 2 * nesting t) * (enc t v).length
  | .uint u, v, _, _, _, buf => by
    have h := uint_appends_le u v buf
    show (appends ((Serializable.uint u).serialize v) buf).1 + 2 ≤ 4 * 1 + (1 + 2 * 0) * _
    simp only [enc, leBytes_length]
    omega
  | .u256, v, _, _, _, buf => by
    have h : (appends (SimpleSerialize.u256.serialize v) buf).1 ≤ 1 + 32 :=
      appends_le rfl (by simp [toLeBytes])
    show (appends (SimpleSerialize.u256.serialize v) buf).1 + 2 ≤ 4 * 1 + (1 + 2 * 0) * _
    simp only [enc, leBytes_length]
    omega
  | .bool, v, _, _, _, buf => by
    have h : (appends (SimpleSerialize.bool.serialize v) buf).1 ≤ 1 + 1 :=
      appends_le rfl (by simp)
    show (appends (SimpleSerialize.bool.serialize v) buf).1 + 2 ≤ 4 * 1 + (1 + 2 * 0) * 1
    omega
  | .node, v, _, _, _, buf => by
    have h : (appends (SimpleSerialize.node.serialize v) buf).1 ≤ 1 + v.1.length :=
      appends_le rfl (by simp)
    show (appends (SimpleSerialize.node.serialize v) buf).1 + 2 ≤ 4 * 1 + (1 + 2 * 0) * v.1.length
    omega
  | .array t n, v, hl, hf, hst, buf => by
    have h := collectionC_le E (T := (t.impl E).toSerializable) (f := enc t) (w := partCount t)
      (k := 1 + 2 * nesting t) (impl_isVar E t) (impl_capacity E t hf.1) v.1
      (fun x _ => serC_snd E t x) (fun x hx => impl_total E t x hl.2 hf.1 (hst x hx))
      (fun x hx => serC_le E t x hl.2 hf.1 (hst x hx) []) buf
    rw [Ty.serC, step_bind_fst, partCount, nesting, enc]
    split
    · show 1 + 0 + 2 ≤ _; omega
    · rw [show 1 + 2 * (1 + nesting t) = 1 + 2 * nesting t + 2 by ring]
      exact (by omega : ∀ {a b c : Nat}, a ≤ 4 * b + c → 1 + a + 2 ≤ 4 * (1 + b) + c) h
  | .vector t n, v, hl, hf, hst, buf => by
    have h := collectionC_le E (T := (t.impl E).toSerializable) (f := enc t) (w := partCount t)
      (k := 1 + 2 * nesting t) (impl_isVar E t) (impl_capacity E t hf.1) (show List t.Val from v)
      (fun x _ => serC_snd E t x) (fun x hx => impl_total E t x hl.2 hf.1 (hst x hx))
      (fun x hx => serC_le E t x hl.2 hf.1 (hst x hx) []) buf
    rw [Ty.serC, step_bind_fst, partCount, nesting, enc]
    split
    · show 1 + 0 + 2 ≤ _; omega
    · rw [show 1 + 2 * (1 + nesting t) = 1 + 2 * nesting t + 2 by ring]
      exact (by omega : ∀ {a b c : Nat}, a ≤ 4 * b + c → 1 + a + 2 ≤ 4 * (1 + b) + c) h
  | .list t n, v, hl, hf, hst, buf => by
    have h := collectionC_le E (T := (t.impl E).toSerializable) (f := enc t) (w := partCount t)
      (k := 1 + 2 * nesting t) (impl_isVar E t) (impl_capacity E t hf) (show List t.Val from v)
      (fun x _ => serC_snd E t x) (fun x hx => impl_total E t x hl hf (hst x hx))
      (fun x hx => serC_le E t x hl hf (hst x hx) []) buf
    rw [Ty.serC, step_bind_fst, partCount, nesting, enc]
    split
    · show 1 + 0 + 2 ≤ _; omega
    · rw [show 1 + 2 * (1 + nesting t) = 1 + 2 * nesting t + 2 by ring]
      exact (by omega : ∀ {a b c : Nat}, a ≤ 4 * b + c → 1 + a + 2 ≤ 4 * (1 + b) + c) h
  | .bitvector n, v, hl, hf, hst, buf => by
    rcases impl_total E (.bitvector n) v hl hf hst with ⟨_, b, k, hb, h⟩ | ⟨hn, _⟩
    · have h1 : (appends (Bitvector.serialize n v) buf).1 ≤ 1 + (enc (.bitvector n) v).length :=
        appends_le (h buf) (by simp [hb])
      show (appends (Bitvector.serialize n v) buf).1 + 2 ≤ 4 * 1 + (1 + 2 * 0) * _
      omega
    · exact absurd ⟨trivial, trivial⟩ hn
  | .bitlist n, v, hl, hf, hst, buf => by
    have h1 : (appends (Bitlist.serializeWithLength n v true) buf).1 ≤
        1 + (enc (.bitlist n) v).length := by
      rcases bitlist_total n v hst with ⟨_, b, k, hb, h⟩ | ⟨_, e, h⟩
      · exact appends_le (h buf) (by simp [hb, enc])
      · exact appends_le (h buf) (Nat.le_add_right _ _)
    show (appends (Bitlist.serializeWithLength n v true) buf).1 + 2 ≤ 4 * 1 + (1 + 2 * 0) * _
    omega
  | .option t, v, hl, hf, hst, buf => by
    match v, hst with
    | none, _ =>
      have h := uint_appends_le .u8 (0 : BitVec 8) buf
      show 1 + (appends ((Serializable.uint .u8).serialize (0 : BitVec 8)) buf).1 + 2 ≤
        4 * 1 + (1 + 2 * nesting t) * 1
      simp only [UintTy.bits, Nat.reduceDiv] at h
      omega
    | some x, hst =>
      have h := selectorC_le (c := t.serC E x) (m := 4 * partCount t x +
        (1 + 2 * nesting t) * (enc t x).length - 2)
        (fun b => by have := serC_le E t x hl hf (hst x rfl) b; omega) 1 buf
      have hp := partCount_pos t x
      show 1 + (serializeWithSelectorC 1 (t.serC E x) buf).1 + 2 ≤
        4 * (1 + partCount t x) + (1 + 2 * nesting t) * ((enc t x).length + 1)
      rw [Nat.mul_add (1 + 2 * nesting t)]
      omega
  | .newtype t, v, hl, hf, hst, buf => by
    have h := serC_le E t v hl hf hst buf
    rw [Ty.serC, step_bind_fst, partCount, nesting, enc]
    omega
  | .container fs, v, hl, hf, hst, buf => by
    have h := finishC_le E (ps := piecesF fs v) (n := (fs.withElementsC E v {}).1)
      (r := (fs.withElementsC E v {}).2) (m := 4 * partCountF fs v +
        (1 + 2 * nestingF fs + 2) * (assemble (piecesF fs v)).length)
      (by
        intro s hs
        replace hs : (fs.impls E).withElements v {} = .ok s := (fieldsC_snd E fs v {}).symm.trans hs
        have := impls_withElements_total E fs v hl.2.2 hf.1 hst []
        simp only [List.nil_append] at this
        rcases this with ⟨_, qs, hq, he⟩ | ⟨_, e, he⟩
        · have h : (fs.impls E).withElements v {} = .ok (Serializer.ofPieces qs) := he
          rw [h] at hs
          exact ⟨qs, hq, (Res.ok.inj hs).symm⟩
        · have h : (fs.impls E).withElements v {} = .err e := he
          rw [h] at hs
          exact absurd hs (by simp))
      (fieldsC_le E fs v hl.2.2 hf.1 hst (1 + 2 * nestingF fs) (Nat.le_refl _) {}) buf
    rw [Ty.serC, step_bind_fst, partCount, nesting, enc,
      show 1 + 2 * (1 + nestingF fs) = 1 + 2 * nestingF fs + 2 by ring]
    exact (by omega : ∀ {a b c : Nat}, a ≤ 4 * b + c → 1 + a + 2 ≤ 4 * (1 + b) + c) h
  | .union vs, v, hl, hf, hst, buf => by
    have h := serVC_le E vs 0 v hl.2 hf hst buf
    rw [Ty.serC, step_bind_fst, partCount, nesting, enc]
    omega

theorem fieldsC_le (E : Env) : ∀ (fs : Fields) (v : fs.Val), LegalF fs → FitsF fs → StoredF fs v →
    ∀ k, 1 + 2 * nestingF fs ≤ k → ∀ s : Serializer,
    (fs.withElementsC E v s).1 + ((piecesF fs v).map partCost).sum ≤
      4 * partCountF fs v + (k + 2) * (assemble (piecesF fs v)).length
  | .nil, _, _, _, _, _, _, _ => Nat.zero_le _
  | .cons _ t rest, v, hl, hf, hst, k, hk, s => by
    have hx := withElementC_le (ser := fun x => t.serC E x) (impl_capacity E t hf.1)
      (serC_snd E t v.1) (impl_total E t v.1 hl.1 hf.1 hst.1) s
    rw [impl_isVar] at hx
    have hle : (1 + 2 * nesting t) * (enc t v.1).length ≤ k * (enc t v.1).length :=
      Nat.mul_le_mul_right _ (by rw [nestingF] at hk; omega)
    have h3 := serC_le E t v.1 hl.1 hf.1 hst.1 []
    have hb := element_budget (p := (isVar t, enc t v.1)) (s := (t.serC E v.1 []).1)
      (w := partCount t v.1) (k := k) (by dsimp only; omega)
    have ih := fieldsC_le E rest v.2 hl.2 hf.2 hst.2 k (by rw [nestingF] at hk; omega)
    rw [← pieceSize_sum] at ih ⊢
    simp only [piecesF, partCountF, List.map_cons, List.sum_cons, Nat.mul_add,
      Fields.withElementsC] at ih ⊢
    have i0 := ih {}
    rcases hr : s.withElementC (t.impl E).toSerializable (fun x => t.serC E x) v.1 with ⟨n, r⟩
    rw [hr] at hx
    cases r with
    | ok s' =>
      have := ih s'
      dsimp only at *
      omega
    | err e => dsimp only at *; omega
    | panic => dsimp only at *; omega

theorem serVC_le (E : Env) : ∀ (vs : Variants) (i : Nat) (v : vs.Val), LegalV vs → FitsV vs →
    StoredV vs v → ∀ buf : Bytes,
    (vs.serC E i v buf).1 + 3 ≤ 4 * partCountV vs v + (1 + 2 * nestingV vs) * (encV vs i v).length
  | .nil, _, v, _, _, _, _ => Empty.elim v
  | .unit rest, i, .inl _, _, _, _, buf => by
    have h := uint_appends_le .u8 (0 : BitVec 8) buf
    show (appends ((Serializable.uint .u8).serialize (0 : BitVec 8)) buf).1 + 3 ≤
      4 * 1 + (1 + 2 * nestingV rest) * 1
    simp only [UintTy.bits, Nat.reduceDiv] at h
    omega
  | .unit rest, i, .inr v, hl, hf, hst, buf => serVC_le E rest (i + 1) v hl hf hst buf
  | .data t rest, i, .inl v, hl, hf, hst, buf => by
    have h := selectorC_le (c := t.serC E v) (m := 4 * partCount t v +
      (1 + 2 * nesting t) * (enc t v).length - 2)
      (fun b => by have := serC_le E t v hl.1 hf.1 hst b; omega) i buf
    have hp := partCount_pos t v
    have hle : (1 + 2 * nesting t) * (enc t v).length ≤
        (1 + 2 * max (nesting t) (nestingV rest)) * (enc t v).length :=
      Nat.mul_le_mul_right _ (by omega)
    show (serializeWithSelectorC i (t.serC E v) buf).1 + 3 ≤
      4 * (1 + partCount t v) + (1 + 2 * max (nesting t) (nestingV rest)) * ((enc t v).length + 1)
    rw [Nat.mul_add (1 + 2 * max (nesting t) (nestingV rest))]
    omega
  | .data t rest, i, .inr v, hl, hf, hst, buf => by
    have h := serVC_le E rest (i + 1) v hl.2 hf.2 hst buf
    have hle : (1 + 2 * nestingV rest) * (encV rest (i + 1) v).length ≤
        (1 + 2 * max (nesting t) (nestingV rest)) * (encV rest (i + 1) v).length :=
      Nat.mul_le_mul_right _ (by omega)
    show (rest.serC E (i + 1) v buf).1 + 3 ≤
      4 * partCountV rest v + (1 + 2 * max (nesting t) (nestingV rest)) * (encV rest (i + 1) v).length
    omega

end

/-! ## The exact number of steps of a successful call -/

namespace BufC

variable {α β : Type}

theorem bind_ok_eq {x : BufC α} {f : α → BufC β} {buf : Bytes} {b : β}
    (h : ((x >>= f) buf).2.2 = .ok b) : ∃ a, (x buf).2.2 = .ok a ∧
      (f a (x buf).2.1).2.2 = .ok b ∧ ((x >>= f) buf).1 = (x buf).1 + (f a (x buf).2.1).1 := by
  change (BufC.bind x f buf).2.2 = _ at h
  show ∃ a, _ ∧ _ ∧ (BufC.bind x f buf).1 = _
  unfold BufC.bind at h ⊢
  rcases hx : x buf with ⟨k, buf', r⟩
  rw [hx] at h
  cases r with
  | ok a => exact ⟨a, rfl, h, rfl⟩
  | err e => exact absurd h (by simp)
  | panic => exact absurd h (by simp)

end BufC

theorem uint_appends_eq (u : UintTy) (v : BitVec u.bits) (buf : Bytes) :
    (appends ((Serializable.uint u).serialize v) buf).1 = 1 + u.bits / 8 := by
  unfold appends
  rw [uint_serialize u v buf]
  simp

theorem writePartsC_eq (E : Env) : ∀ (parts : List Part) (running : Nat) (buf : Bytes) (u : Unit),
    (writePartsC E running parts buf).2.2 = .ok u →
    (writePartsC E running parts buf).1 = (parts.map loopCost).sum
  | [], _, _, _, _ => rfl
  | .fixed data :: rest, running, buf, u, h => by
    rw [writePartsC, step_bind_snd] at h
    rw [writePartsC, step_bind_fst, List.map_cons, List.sum_cons, loopCost]
    obtain ⟨_, _, h2, h3⟩ := bind_ok_eq h
    rw [h3, writePartsC_eq E rest _ _ _ h2]
    show 1 + (data.length + _) = _
    omega
  | .offset n :: rest, running, buf, u, h => by
    rw [writePartsC, step_bind_snd] at h
    rw [writePartsC, step_bind_fst, List.map_cons, List.sum_cons, loopCost]
    obtain ⟨_, _, h2, h3⟩ := bind_ok_eq h
    obtain ⟨_, _, h5, h6⟩ := bind_ok_eq h2
    obtain ⟨_, _, h8, h9⟩ := bind_ok_eq h5
    rw [h3, h6, h9, writePartsC_eq E rest _ _ _ h8, uint_appends_eq]
    show 1 + (1 + 4 + (0 + (0 + _))) = _
    omega

theorem serializerC_eq (E : Env) (ps : List Piece) (buf : Bytes) (n : Nat)
    (h : ((Serializer.ofPieces ps).serializeC E buf).2.2 = .ok n) :
    ((Serializer.ofPieces ps).serializeC E buf).1 = (ps.map partCost).sum := by
  unfold Serializer.serializeC at h ⊢
  split at h
  · exact absurd h (by simp [free])
  · rename_i hc
    simp only [hc, if_false]
    obtain ⟨_, h1, h2, h3⟩ := bind_ok_eq h
    obtain ⟨_, _, h5, h6⟩ := bind_ok_eq h2
    rw [h3, h6, writePartsC_eq E _ _ _ _ h1, ← ofPieces_cost]
    rfl

theorem placing_eq (p : Piece) : placing p = 1 + moved p + partCost p := by
  unfold placing moved partCost
  split <;> omega

theorem withElementC_eq {α : Type} {T : Serializable α} {ser : α → BufC Nat} {x : α} {b : Bytes}
    {P : Prop} {c : Nat} (hs : HasCapacity T) (h : ∀ buf, (ser x buf).2 = T.serialize x buf)
    (ht : SerTotal T x b.length P) (hc : ∀ buf n, (ser x buf).2.2 = .ok n → (ser x buf).1 = c)
    {s s' : Serializer} (hok : (s.withElementC T ser x).2 = .ok s') :
    (s.withElementC T ser x).1 = 1 + c + moved (T.isVariableSize, b) := by
  obtain ⟨z, hs, hz⟩ := hs
  unfold Serializer.withElementC at hok ⊢
  simp only [hs, Res.lift_ok, Res.ok_bind, withCapacity_ok hz] at hok ⊢
  have h0 := h []
  have hc0 := hc []
  rcases hx : ser x [] with ⟨k, b', r⟩
  rw [hx] at h0 hc0 hok
  dsimp only at h0
  rcases ht with ⟨_, bytes, n, hl, ht⟩ | ⟨_, e, junk, ht⟩
  · rw [ht []] at h0
    simp only [Prod.mk.injEq] at h0
    obtain ⟨rfl, rfl⟩ := h0
    have hk : k = c := hc0 n rfl
    dsimp only
    cases hv : T.isVariableSize <;> simp [moved, hl, hk]
  · rw [ht []] at h0
    simp only [Prod.mk.injEq] at h0
    obtain ⟨rfl, rfl⟩ := h0
    exact absurd hok (by simp)

theorem withElementsC_eq {α : Type} {T : Serializable α} {ser : α → BufC Nat} {f : α → Bytes}
    {P : α → Prop} {c : α → Nat} {var : Bool} (hv : T.isVariableSize = var)
    (hs : HasCapacity T) : ∀ (xs : List α)
    (_ : ∀ x ∈ xs, ∀ buf, (ser x buf).2 = T.serialize x buf)
    (_ : ∀ x ∈ xs, SerTotal T x (f x).length (P x))
    (_ : ∀ x ∈ xs, ∀ buf n, (ser x buf).2.2 = .ok n → (ser x buf).1 = c x) (s s' : Serializer),
    (s.withElementsC T ser xs).2 = .ok s' →
    (s.withElementsC T ser xs).1 + ((xs.map fun x => (var, f x)).map partCost).sum =
      (xs.map fun x => c x + placing (var, f x)).sum
  | [], _, _, _, _, _, _ => rfl
  | x :: xs, h1, h2, h3, s, s', hok => by
    have ih := fun s1 => withElementsC_eq hv hs xs (fun y hy => h1 y (by simp [hy]))
      (fun y hy => h2 y (by simp [hy])) (fun y hy => h3 y (by simp [hy])) s1 s'
    have hx := fun s1 => withElementC_eq (s := s) (s' := s1) hs (h1 x (by simp)) (h2 x (by simp))
      (h3 x (by simp))
    rw [hv] at hx
    simp only [List.map_cons, List.sum_cons, Serializer.withElementsC, placing_eq] at ih hok ⊢
    rcases hr : s.withElementC T ser x with ⟨n, r⟩
    rw [hr] at hx hok
    cases r with
    | ok s1 =>
      have h4 := ih s1 hok
      have h5 := hx s1 rfl
      dsimp only at *
      omega
    | err e => exact absurd hok (by simp)
    | panic => exact absurd hok (by simp)

/-- The common tail of `serialize` for composites. -/
theorem finishC_eq (E : Env) {n m : Nat} {r : Res SerError Serializer} {ps : List Piece}
    (hr : ∀ s, r = .ok s → ∃ qs : List Piece, qs.map (fun p => (p.1, p.2.length)) =
      ps.map (fun p => (p.1, p.2.length)) ∧ s = Serializer.ofPieces qs)
    (h : ∀ s, r = .ok s → n + (ps.map partCost).sum = m) {buf : Bytes} {k : Nat}
    (hok : ((ofCount (n, r) >>= fun s => s.serializeC E) buf).2.2 = .ok k) :
    ((ofCount (n, r) >>= fun s => s.serializeC E) buf).1 = m := by
  obtain ⟨s, h1, h2, h3⟩ := bind_ok_eq hok
  obtain ⟨qs, hq, rfl⟩ := hr s h1
  rw [h3, serializerC_eq E qs _ _ h2, partCost_congr hq]
  exact h _ h1

theorem collectionC_eq (E : Env) {α : Type} {T : Serializable α} {ser : α → BufC Nat}
    {f : α → Bytes} {P : α → Prop} {c : α → Nat} {var : Bool}
    (hv : T.isVariableSize = var) (hs : HasCapacity T) (xs : List α)
    (h1 : ∀ x ∈ xs, ∀ buf, (ser x buf).2 = T.serialize x buf)
    (h2 : ∀ x ∈ xs, SerTotal T x (f x).length (P x))
    (h3 : ∀ x ∈ xs, ∀ buf n, (ser x buf).2.2 = .ok n → (ser x buf).1 = c x)
    {buf : Bytes} {n : Nat}
    (hok : ((ofCount (Serializer.withElementsC T ser {} xs) >>= fun s => s.serializeC E) buf).2.2 =
      .ok n) :
    ((ofCount (Serializer.withElementsC T ser {} xs) >>= fun s => s.serializeC E) buf).1 =
      (xs.map fun x => c x + placing (var, f x)).sum := by
  refine finishC_eq E (ps := xs.map fun x => (var, f x)) ?_
    (fun s' hs' => withElementsC_eq hv hs xs h1 h2 h3 {} s' hs') hok
  intro s hsk
  rw [withElementsC_snd xs h1] at hsk
  rcases Serializer.withElements_total hs h2 [] with ⟨_, qs, hq, he⟩ | ⟨_, e, he⟩
  · refine ⟨qs, by rw [hq, hv]; simp, ?_⟩
    have h : (Serializer.withElements T {} xs) = .ok (Serializer.ofPieces ([] ++ qs)) := he
    rw [h] at hsk
    exact (Res.ok.inj hsk).symm
  · have h : (Serializer.withElements T {} xs) = .err e := he
    rw [h] at hsk
    exact absurd hsk (by simp)

theorem selectorC_eq {c : BufC Nat} {m : Nat} (h : ∀ buf n, (c buf).2.2 = .ok n → (c buf).1 = m)
    (i : Nat) {buf : Bytes} {n : Nat} (hok : (serializeWithSelectorC i c buf).2.2 = .ok n) :
    (serializeWithSelectorC i c buf).1 = 2 + m := by
  obtain ⟨_, _, h2, h3⟩ := bind_ok_eq hok
  obtain ⟨_, h4, _, h6⟩ := bind_ok_eq h2
  have h7 := h _ _ h4
  refine h3.trans ?_
  rw [uint_appends_eq, h6, h7]
  rfl

mutual

theorem serC_eq (E : Env) : ∀ (t : Ty) (v : t.Val), Legal t → Fits t → Stored t v →
    ∀ (buf : Bytes) (n : Nat), (t.serC E v buf).2.2 = .ok n → (t.serC E v buf).1 = encodeCost t v
  | .uint u, v, _, _, _, buf, _, _ => uint_appends_eq u v buf
  | .u256, v, _, _, _, buf, _, _ => by
    show 1 + ((buf ++ toLeBytes 32 v.toNat).length - buf.length) = 33
    simp [toLeBytes]
  | .bool, v, _, _, _, buf, _, _ => by
    show 1 + ((buf ++ [_]).length - buf.length) = 2
    simp
  | .node, v, _, _, _, buf, _, _ => by
    show 1 + ((buf ++ v.1).length - buf.length) = 33
    simp [v.2]
  | .array t n, v, hl, hf, hst, buf, k, hok => by
    rw [Ty.serC, step_bind_snd] at hok
    rw [Ty.serC, step_bind_fst, encodeCost]
    split at hok
    · exact absurd hok (by simp [free])
    · rename_i hc
      simp only [hc, if_false]
      exact congrArg (1 + ·) (collectionC_eq E (T := (t.impl E).toSerializable) (f := enc t)
        (c := encodeCost t) (impl_isVar E t) (impl_capacity E t hf.1) v.1
        (fun x _ => serC_snd E t x) (fun x hx => impl_total E t x hl.2 hf.1 (hst x hx))
        (fun x hx => serC_eq E t x hl.2 hf.1 (hst x hx)) hok)
  | .vector t n, v, hl, hf, hst, buf, k, hok => by
    rw [Ty.serC, step_bind_snd] at hok
    rw [Ty.serC, step_bind_fst, encodeCost]
    split at hok
    · exact absurd hok (by simp [free])
    · rename_i hc
      simp only [hc, if_false]
      exact congrArg (1 + ·) (collectionC_eq E (T := (t.impl E).toSerializable) (f := enc t)
        (c := encodeCost t) (impl_isVar E t) (impl_capacity E t hf.1) (show List t.Val from v)
        (fun x _ => serC_snd E t x) (fun x hx => impl_total E t x hl.2 hf.1 (hst x hx))
        (fun x hx => serC_eq E t x hl.2 hf.1 (hst x hx)) hok)
  | .list t n, v, hl, hf, hst, buf, k, hok => by
    rw [Ty.serC, step_bind_snd] at hok
    rw [Ty.serC, step_bind_fst, encodeCost]
    split at hok
    · exact absurd hok (by simp [free])
    · rename_i hc
      simp only [hc, if_false]
      exact congrArg (1 + ·) (collectionC_eq E (T := (t.impl E).toSerializable) (f := enc t)
        (c := encodeCost t) (impl_isVar E t) (impl_capacity E t hf) (show List t.Val from v)
        (fun x _ => serC_snd E t x) (fun x hx => impl_total E t x hl hf (hst x hx))
        (fun x hx => serC_eq E t x hl hf (hst x hx)) hok)
  | .bitvector n, v, hl, hf, hst, buf, k, hok => by
    rcases impl_total E (.bitvector n) v hl hf hst with ⟨_, b, k', hb, h⟩ | ⟨hn, _⟩
    · have h1 : Bitvector.serialize n v buf = (buf ++ b, .ok k') := h buf
      show 1 + ((Bitvector.serialize n v buf).1.length - buf.length) = _
      rw [h1, List.length_append, hb, encodeCost, enc, packBits_length]
      omega
    · exact absurd ⟨trivial, trivial⟩ hn
  | .bitlist n, v, hl, hf, hst, buf, k, hok => by
    rcases bitlist_total n v hst with ⟨_, b, k', hb, h⟩ | ⟨_, e, h⟩
    · show 1 + ((Bitlist.serializeWithLength n v true buf).1.length - buf.length) = _
      rw [h buf, List.length_append, hb, encodeCost, packBits_length, List.length_append]
      show 1 + (buf.length + (v.live.length + 1 + 7) / 8 - buf.length) = _
      omega
    · change (Bitlist.serializeWithLength n v true buf).2 = _ at hok
      rw [h buf] at hok
      exact absurd hok (by simp)
  | .option t, v, hl, hf, hst, buf, k, hok => by
    match v, hst, hok with
    | none, _, _ =>
      show 1 + (appends ((Serializable.uint .u8).serialize (0 : BitVec 8)) buf).1 = 3
      rw [uint_appends_eq]
      rfl
    | some x, hst, hok =>
      have h := selectorC_eq (c := t.serC E x) (serC_eq E t x hl hf (hst x rfl)) 1
        (show (serializeWithSelectorC 1 (t.serC E x) buf).2.2 = .ok k from hok)
      show 1 + (serializeWithSelectorC 1 (t.serC E x) buf).1 = 3 + encodeCost t x
      omega
  | .newtype t, v, hl, hf, hst, buf, k, hok =>
    congrArg (1 + ·) (serC_eq E t v hl hf hst buf k hok)
  | .container fs, v, hl, hf, hst, buf, k, hok => by
    refine congrArg (1 + ·) (finishC_eq E (ps := piecesF fs v) (n := (fs.withElementsC E v {}).1)
      (r := (fs.withElementsC E v {}).2) ?_
      (fun s hs => fieldsC_eq E fs v hl.2.2 hf.1 hst {} s hs) hok)
    intro s hs
    replace hs : (fs.impls E).withElements v {} = .ok s := (fieldsC_snd E fs v {}).symm.trans hs
    have := impls_withElements_total E fs v hl.2.2 hf.1 hst []
    simp only [List.nil_append] at this
    rcases this with ⟨_, qs, hq, he⟩ | ⟨_, e, he⟩
    · have h : (fs.impls E).withElements v {} = .ok (Serializer.ofPieces qs) := he
      rw [h] at hs
      exact ⟨qs, hq, (Res.ok.inj hs).symm⟩
    · have h : (fs.impls E).withElements v {} = .err e := he
      rw [h] at hs
      exact absurd hs (by simp)
  | .union vs, v, hl, hf, hst, buf, k, hok =>
    congrArg (1 + ·) (serVC_eq E vs 0 v hl.2 hf hst buf k hok)

theorem fieldsC_eq (E : Env) : ∀ (fs : Fields) (v : fs.Val), LegalF fs → FitsF fs → StoredF fs v →
    ∀ s s' : Serializer, (fs.withElementsC E v s).2 = .ok s' →
    (fs.withElementsC E v s).1 + ((piecesF fs v).map partCost).sum = encodeCostF fs v
  | .nil, _, _, _, _, _, _, _ => rfl
  | .cons _ t rest, v, hl, hf, hst, s, s', hok => by
    have hx := fun s1 => withElementC_eq (s := s) (s' := s1) (ser := fun x => t.serC E x)
      (impl_capacity E t hf.1) (serC_snd E t v.1) (impl_total E t v.1 hl.1 hf.1 hst.1)
      (serC_eq E t v.1 hl.1 hf.1 hst.1)
    rw [impl_isVar] at hx
    have ih := fun s1 => fieldsC_eq E rest v.2 hl.2 hf.2 hst.2 s1 s'
    simp only [piecesF, encodeCostF, List.map_cons, List.sum_cons, placing_eq,
      Fields.withElementsC] at ih hok ⊢
    rcases hr : s.withElementC (t.impl E).toSerializable (fun x => t.serC E x) v.1 with ⟨n, r⟩
    rw [hr] at hx hok
    cases r with
    | ok s1 =>
      have h4 := ih s1 hok
      have h5 := hx s1 rfl
      dsimp only at *
      omega
    | err e => exact absurd hok (by simp)
    | panic => exact absurd hok (by simp)

theorem serVC_eq (E : Env) : ∀ (vs : Variants) (i : Nat) (v : vs.Val), LegalV vs → FitsV vs →
    StoredV vs v → ∀ (buf : Bytes) (n : Nat), (vs.serC E i v buf).2.2 = .ok n →
    (vs.serC E i v buf).1 = encodeCostV vs v
  | .nil, _, v, _, _, _, _, _, _ => Empty.elim v
  | .unit rest, i, .inl _, _, _, _, buf, _, _ => uint_appends_eq .u8 (0 : BitVec 8) buf
  | .unit rest, i, .inr v, hl, hf, hst, buf, n, hok => serVC_eq E rest (i + 1) v hl hf hst buf n hok
  | .data t rest, i, .inl v, hl, hf, hst, buf, n, hok =>
    selectorC_eq (c := t.serC E v) (serC_eq E t v hl.1 hf.1 hst) i hok
  | .data t rest, i, .inr v, hl, hf, hst, buf, n, hok =>
    serVC_eq E rest (i + 1) v hl.2 hf.2 hst buf n hok

end

/-! ## Values and bytes -/

theorem elements_parts {t : Ty} (hl : Legal t) (xs : List t.Val) (hv : Each (Valid t) xs)
    (h : ∀ x ∈ xs, partCount t x ≤ typeSize t * max 1 (enc t x).length) :
    1 + (xs.map fun x => partCount t x).sum ≤
      (1 + typeSize t) * max 1 (assemble (xs.map fun x => (isVar t, enc t x))).length := by
  have h1 : (xs.map fun x => partCount t x).sum ≤
      typeSize t * (assemble (xs.map fun x => (isVar t, enc t x))).length := by
    induction xs with
    | nil => exact Nat.zero_le _
    | cons x xs ih =>
      have ih := ih (fun y hy => hv y (by simp [hy])) (fun y hy => h y (by simp [hy]))
      have hx := h x (by simp)
      have h3 : max 1 (enc t x).length ≤ (if isVar t then 4 else 0) + (enc t x).length := by
        cases hi : isVar t with
        | true => simp; omega
        | false =>
          have := fixedLen_pos t hl hi
          rw [enc_length t x hi (hv x (by simp))]
          simp only [Bool.false_eq_true, if_false]
          omega
      have h4 := Nat.mul_le_mul_left (typeSize t) h3
      rw [List.map_cons, List.sum_cons, List.map_cons, assemble_cons_length, Nat.mul_add]
      omega
  have h2 : typeSize t * (assemble (xs.map fun x => (isVar t, enc t x))).length ≤
      typeSize t * max 1 (assemble (xs.map fun x => (isVar t, enc t x))).length :=
    Nat.mul_le_mul_left _ (Nat.le_max_right _ _)
  rw [Nat.add_mul, Nat.one_mul]
  omega

mutual

theorem partCount_le : ∀ (t : Ty) (v : t.Val), Legal t → Valid t v →
    partCount t v ≤ typeSize t * max 1 (enc t v).length
  | .uint _, _, _, _ => by simp only [partCount, typeSize]; omega
  | .u256, _, _, _ => by simp only [partCount, typeSize]; omega
  | .bool, _, _, _ => by simp only [partCount, typeSize]; omega
  | .node, _, _, _ => by simp only [partCount, typeSize]; omega
  | .array t _, v, hl, hv => elements_parts hl.2 v.1 hv fun x hx => partCount_le t x hl.2 (hv x hx)
  | .vector t _, v, hl, hv =>
    elements_parts (t := t) hl.2 v hv.2 fun x hx => partCount_le t x hl.2 (hv.2 x hx)
  | .list t _, v, hl, hv =>
    elements_parts (t := t) hl v hv.2 fun x hx => partCount_le t x hl (hv.2 x hx)
  | .bitvector _, _, _, _ => by simp only [partCount, typeSize]; omega
  | .bitlist _, _, _, _ => by simp only [partCount, typeSize]; omega
  | .option t, v, hl, hv => by
    match v, hv with
    | none, _ => show 1 ≤ (1 + typeSize t) * 1; omega
    | some x, hv =>
      have h := partCount_le t x hl (hv x rfl)
      have h1 : typeSize t * max 1 (enc t x).length ≤
          typeSize t * max 1 ((enc t x).length + 1) := Nat.mul_le_mul_left _ (by omega)
      show 1 + partCount t x ≤ (1 + typeSize t) * max 1 ((enc t x).length + 1)
      rw [Nat.add_mul, Nat.one_mul]
      omega
  | .newtype t, v, hl, hv => by
    have h := partCount_le t v hl hv
    show 1 + partCount t v ≤ (1 + typeSize t) * max 1 (enc t v).length
    rw [Nat.add_mul, Nat.one_mul]
    omega
  | .container fs, v, hl, hv => by
    have h := partCountF_le fs v hl.2.2 hv
    show 1 + partCountF fs v ≤ (1 + typeSizeF fs) * max 1 (assemble (piecesF fs v)).length
    rw [Nat.add_mul, Nat.one_mul]
    omega
  | .union vs, v, hl, hv => partCountV_le vs 0 v hl.2 hv

theorem partCountF_le : ∀ (fs : Fields) (v : fs.Val), LegalF fs → ValidF fs v →
    partCountF fs v ≤ typeSizeF fs * max 1 (assemble (piecesF fs v)).length
  | .nil, _, _, _ => Nat.zero_le _
  | .cons _ t rest, v, hl, hv => by
    have h1 := partCount_le t v.1 hl.1 hv.1
    have h2 := partCountF_le rest v.2 hl.2 hv.2
    simp only [partCountF, typeSizeF, piecesF]
    rw [assemble_cons_length, Nat.add_mul]
    have h3 : typeSize t * max 1 (enc t v.1).length ≤ typeSize t * max 1
        ((if isVar t then 4 else 0) + (enc t v.1).length + (assemble (piecesF rest v.2)).length) :=
      Nat.mul_le_mul_left _ (by omega)
    have h4 : typeSizeF rest * max 1 (assemble (piecesF rest v.2)).length ≤ typeSizeF rest * max 1
        ((if isVar t then 4 else 0) + (enc t v.1).length + (assemble (piecesF rest v.2)).length) :=
      Nat.mul_le_mul_left _ (by omega)
    omega

theorem partCountV_le : ∀ (vs : Variants) (i : Nat) (v : vs.Val), LegalV vs → ValidV vs v →
    partCountV vs v ≤ (1 + typeSizeV vs) * max 1 (encV vs i v).length
  | .nil, _, v, _, _ => Empty.elim v
  | .unit rest, _, .inl _, _, _ => by
    show 1 ≤ (1 + (1 + typeSizeV rest)) * 1
    omega
  | .unit rest, i, .inr v, hl, hv => by
    have h := partCountV_le rest (i + 1) v hl hv
    exact Nat.le_trans h (Nat.mul_le_mul_right _ (by rw [typeSizeV]; omega))
  | .data t rest, i, .inl v, hl, hv => by
    have h := partCount_le t v hl.1 hv
    have h1 : typeSize t * max 1 (enc t v).length ≤ typeSize t * max 1 ((enc t v).length + 1) :=
      Nat.mul_le_mul_left _ (by omega)
    show 1 + partCount t v ≤ (1 + (typeSize t + typeSizeV rest)) * max 1 ((enc t v).length + 1)
    rw [Nat.add_mul, Nat.add_mul, Nat.one_mul]
    omega
  | .data t rest, i, .inr v, hl, hv => by
    have h := partCountV_le rest (i + 1) v hl.2 hv
    exact Nat.le_trans h (Nat.mul_le_mul_right _ (by rw [typeSizeV]; omega))

end

mutual

theorem nesting_le : ∀ t : Ty, nesting t ≤ typeSize t
  | .uint _ => Nat.zero_le _
  | .u256 => Nat.zero_le _
  | .bool => Nat.zero_le _
  | .node => Nat.zero_le _
  | .array t _ => by have := nesting_le t; rw [nesting, typeSize]; omega
  | .vector t _ => by have := nesting_le t; rw [nesting, typeSize]; omega
  | .list t _ => by have := nesting_le t; rw [nesting, typeSize]; omega
  | .bitvector _ => by rw [nesting, typeSize]; omega
  | .bitlist _ => by rw [nesting, typeSize]; omega
  | .option t => by have := nesting_le t; rw [nesting, typeSize]; omega
  | .newtype t => by have := nesting_le t; rw [nesting, typeSize]; omega
  | .container fs => by have := nestingF_le fs; rw [nesting, typeSize]; omega
  | .union vs => by have := nestingV_le vs; rw [nesting, typeSize]; omega

theorem nestingF_le : ∀ fs : Fields, nestingF fs ≤ typeSizeF fs
  | .nil => Nat.le_refl _
  | .cons _ t rest => by
    have h1 := nesting_le t
    have h2 := nestingF_le rest
    rw [nestingF, typeSizeF]
    omega

theorem nestingV_le : ∀ vs : Variants, nestingV vs ≤ typeSizeV vs
  | .nil => Nat.le_refl _
  | .unit rest => by have := nestingV_le rest; rw [nestingV, typeSizeV]; omega
  | .data t rest => by
    have h1 := nesting_le t
    have h2 := nestingV_le rest
    rw [nestingV, typeSizeV]
    omega

end

end Ssz
