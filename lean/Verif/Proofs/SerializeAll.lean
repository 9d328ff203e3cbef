import Verif.Proofs.Serialize

/-!
# Serialization of arbitrary values

What `serialize` does on every value safe code can build, in bounds or not.
-/

namespace Ssz

open Spec

/-- `serialize` appends `len` bytes if `P`, and returns an error otherwise. -/
def SerTotal {α : Type} (T : Serializable α) (v : α) (len : Nat) (P : Prop) : Prop :=
  (P ∧ ∃ bytes n, bytes.length = len ∧ ∀ buf, T.serialize v buf = (buf ++ bytes, .ok n)) ∨
  (¬ P ∧ ∃ e junk, ∀ buf, T.serialize v buf = (buf ++ junk, .err e))

theorem SerTotal.congr {α : Type} {T : Serializable α} {v : α} {len : Nat} {P Q : Prop}
    (h : SerTotal T v len P) (hpq : P ↔ Q) : SerTotal T v len Q := by
  rcases h with ⟨hp, h⟩ | ⟨hp, h⟩
  · exact Or.inl ⟨hpq.mp hp, h⟩
  · exact Or.inr ⟨fun hq => hp (hpq.mpr hq), h⟩

/-- The lengths of pieces determine the length of their assembly. -/
theorem assemble_length_congr {ps qs : List Piece}
    (h : ps.map (fun p => (p.1, p.2.length)) = qs.map (fun p => (p.1, p.2.length))) :
    (assemble ps).length = (assemble qs).length := by
  rw [assemble_length, assemble_length]
  have hh : ∀ rs : List Piece, headLen rs =
      ((rs.map fun p => (p.1, p.2.length)).map fun q => if q.1 then 4 else q.2).sum := by
    intro rs
    simp only [headLen, List.map_map]
    rfl
  have ht : ∀ rs : List Piece, (tails rs).length =
      ((rs.map fun p => (p.1, p.2.length)).map fun q => if q.1 then q.2 else 0).sum := by
    intro rs
    induction rs with
    | nil => rfl
    | cons p rs ih =>
      simp only [tails, List.flatMap_cons, List.length_append, List.map_cons, List.sum_cons]
      simp only [tails] at ih
      rw [ih]
      split <;> simp
  rw [hh ps, hh qs, ht ps, ht qs, h]

theorem Serializer.withElement_total {α : Type} {T : Serializable α} {x : α} {len : Nat} {P : Prop}
    (hs : HasCapacity T) (h : SerTotal T x len P) (ps : List Piece) :
    (P ∧ ∃ bytes, bytes.length = len ∧ (Serializer.ofPieces ps).withElement T x =
        .ok (Serializer.ofPieces (ps ++ [(T.isVariableSize, bytes)]))) ∨
    (¬ P ∧ ∃ e, (Serializer.ofPieces ps).withElement T x = .err e) := by
  obtain ⟨s, hs, hc⟩ := hs
  rcases h with ⟨hp, bytes, n, hl, h⟩ | ⟨hp, e, junk, h⟩
  · refine Or.inl ⟨hp, bytes, hl, ?_⟩
    have h0 := h []
    simp only [List.nil_append] at h0
    simp only [Serializer.withElement, hs, Res.lift_ok, Res.ok_bind, withCapacity_ok hc, h0]
    cases hv : T.isVariableSize <;> simp [Serializer.ofPieces, headLen, headSize, tails]
  · refine Or.inr ⟨hp, e, ?_⟩
    simp only [Serializer.withElement, hs, Res.lift_ok, Res.ok_bind, withCapacity_ok hc, h []]

theorem Serializer.withElements_total {α : Type} {T : Serializable α} {len : α → Nat}
    {P : α → Prop} (hs : HasCapacity T) {xs : List α}
    (h : ∀ x ∈ xs, SerTotal T x (len x) (P x)) (ps : List Piece) :
    (Each P xs ∧ ∃ qs : List Piece, qs.map (fun p => (p.1, p.2.length)) =
        xs.map (fun x => (T.isVariableSize, len x)) ∧
      (Serializer.ofPieces ps).withElements T xs = .ok (Serializer.ofPieces (ps ++ qs))) ∨
    (¬ Each P xs ∧ ∃ e, (Serializer.ofPieces ps).withElements T xs = .err e) := by
  induction xs generalizing ps with
  | nil => exact Or.inl ⟨by simp [Each], [], rfl, by simp [Serializer.withElements]⟩
  | cons x xs ih =>
    simp only [Serializer.withElements]
    rcases Serializer.withElement_total hs (h x (by simp)) ps with ⟨hp, b, hl, he⟩ | ⟨hp, e, he⟩
    · rw [he]
      simp only [Res.ok_bind]
      rcases ih (fun y hy => h y (by simp [hy])) (ps ++ [(T.isVariableSize, b)]) with
        ⟨hp2, qs, hq, he2⟩ | ⟨hp2, e, he2⟩
      · refine Or.inl ⟨?_, (T.isVariableSize, b) :: qs, ?_, ?_⟩
        · intro y hy
          rcases List.mem_cons.mp hy with rfl | hy
          · exact hp
          · exact hp2 y hy
        · simp [hq, hl]
        · rw [he2]; simp
      · exact Or.inr ⟨fun hall => hp2 fun y hy => hall y (by simp [hy]), e, he2⟩
    · rw [he]
      exact Or.inr ⟨fun hall => hp (hall x (by simp)), e, rfl⟩

/-- The common tail of `serialize` for composites. -/
theorem Serializer.finish_total (E : Env) {r : Res SerError Serializer} {ps : List Piece}
    {P : Prop}
    (h : (P ∧ ∃ qs : List Piece, qs.map (fun p => (p.1, p.2.length)) =
        ps.map (fun p => (p.1, p.2.length)) ∧ r = .ok (Serializer.ofPieces qs)) ∨
      (¬ P ∧ ∃ e, r = .err e)) :
    (((assemble ps).length < maxLen ∧ P) ∧ ∃ bytes n, bytes.length = (assemble ps).length ∧
      ∀ buf, (BufM.ofRes r >>= fun s => s.serialize E) buf = (buf ++ bytes, .ok n)) ∨
    (¬ ((assemble ps).length < maxLen ∧ P) ∧ ∃ e, ∀ buf,
      (BufM.ofRes r >>= fun s => s.serialize E) buf = (buf, .err e)) := by
  rcases h with ⟨hp, qs, hq, rfl⟩ | ⟨hp, e, rfl⟩
  · have hl := assemble_length_congr hq
    by_cases hlt : (assemble ps).length < maxLen
    · refine Or.inl ⟨⟨hlt, hp⟩, assemble qs, (assemble qs).length, hl, fun buf => ?_⟩
      simp only [BufM.ofRes_ok_bind]
      exact Serializer.serialize_ofPieces E qs (by omega) buf
    · refine Or.inr ⟨fun hh => hlt hh.1, .maximumEncodedLengthReached (assemble qs).length,
        fun buf => ?_⟩
      simp only [BufM.ofRes_ok_bind]
      exact Serializer.serialize_ofPieces_err E qs (by omega) buf
  · refine Or.inr ⟨fun hh => hp hh.2, e, fun buf => ?_⟩
    simp only [BufM.ofRes_err_bind, BufM.ofRes_apply]

theorem Serializer.collection_total (E : Env) {α : Type} {T : Serializable α} {f : α → Bytes}
    {P : α → Prop} {v : Bool} (hv : T.isVariableSize = v) (hs : HasCapacity T)
    {xs : List α} (h : ∀ x ∈ xs, SerTotal T x (f x).length (P x)) :
    (((assemble (xs.map fun x => (v, f x))).length < maxLen ∧ Each P xs) ∧
      ∃ bytes n, bytes.length = (assemble (xs.map fun x => (v, f x))).length ∧
      ∀ buf, (BufM.ofRes (Serializer.withElements T {} xs) >>= fun s => s.serialize E) buf =
        (buf ++ bytes, .ok n)) ∨
    (¬ ((assemble (xs.map fun x => (v, f x))).length < maxLen ∧ Each P xs) ∧ ∃ e, ∀ buf,
      (BufM.ofRes (Serializer.withElements T {} xs) >>= fun s => s.serialize E) buf =
        (buf, .err e)) := by
  refine Serializer.finish_total E ?_
  rcases Serializer.withElements_total hs h [] with ⟨hp, qs, hq, he⟩ | ⟨hp, e, he⟩
  · refine Or.inl ⟨hp, qs, ?_, he⟩
    rw [hq, hv]
    simp
  · exact Or.inr ⟨hp, e, he⟩

/-- An error without buffer change is an error. -/
theorem SerTotal.of_unchanged {α : Type} {T : Serializable α} {v : α} {len : Nat} {P : Prop}
    (h : (P ∧ ∃ bytes n, bytes.length = len ∧ ∀ buf, T.serialize v buf = (buf ++ bytes, .ok n)) ∨
      (¬ P ∧ ∃ e, ∀ buf, T.serialize v buf = (buf, .err e))) : SerTotal T v len P := by
  rcases h with h | ⟨hp, e, h⟩
  · exact Or.inl h
  · exact Or.inr ⟨hp, e, [], fun buf => by rw [h buf, List.append_nil]⟩

theorem selector_total {α : Type} {T : Serializable α} {v : α} {len : Nat} {P : Prop} (i : Nat)
    (h : SerTotal T v len P) :
    (P ∧ ∃ bytes n, bytes.length = len + 1 ∧
      ∀ buf, serializeWithSelector T i v buf = (buf ++ bytes, .ok n)) ∨
    (¬ P ∧ ∃ e junk, ∀ buf, serializeWithSelector T i v buf = (buf ++ junk, .err e)) := by
  have h1 : leBytes 1 (BitVec.ofNat 8 i).toNat = [BitVec.ofNat 8 i] := by
    rw [leBytes_succ]; simp [ofNat_mod_256]
  rcases h with ⟨hp, bytes, n, hl, h⟩ | ⟨hp, e, junk, h⟩
  · refine Or.inl ⟨hp, BitVec.ofNat 8 i :: bytes, 1 + n, by simp [hl], fun buf => ?_⟩
    simp only [serializeWithSelector]
    rw [BufM.bind_ok (uint_serialize .u8 _ _), BufM.bind_ok (h _)]
    simp only [BufM.ofRes_apply, UintTy.bits, Nat.reduceDiv, h1]
    simp
  · refine Or.inr ⟨hp, e, BitVec.ofNat 8 i :: junk, fun buf => ?_⟩
    simp only [serializeWithSelector]
    rw [BufM.bind_ok (uint_serialize .u8 _ _), BufM.bind_err (h _)]
    simp only [UintTy.bits, Nat.reduceDiv, h1]
    simp

theorem chunks8_map_length (l : List Bool) : ((chunks8 l).map byteOfBits).length = (l.length + 7) / 8 := by
  rw [chunks8_map, packBits_length]

theorem orLast_length (m : Byte) (bs : Bytes) (h : bs ≠ []) :
    ∃ b', ∀ pre, orLast m (pre ++ bs) = some (pre ++ b') ∧ b'.length = bs.length := by
  obtain ⟨init, x, rfl⟩ := (List.eq_nil_or_concat bs).resolve_left h
  refine ⟨init ++ [x ||| m], fun pre => ⟨?_, by simp⟩⟩
  simp only [List.concat_eq_append]
  rw [← List.append_assoc, orLast_concat, List.append_assoc]

theorem bitlist_total (n : Nat) (v : Bits) (hst : v.dead.length = (padBits v.live.length).length) :
    (v.live.length ≤ n ∧ ∃ bytes k, bytes.length = (packBits (v.live ++ [true])).length ∧
      ∀ buf, Bitlist.serializeWithLength n v true buf = (buf ++ bytes, .ok k)) ∨
    (¬ v.live.length ≤ n ∧ ∃ e, ∀ buf, Bitlist.serializeWithLength n v true buf = (buf, .err e)) := by
  by_cases h : v.live.length ≤ n
  · refine Or.inl ⟨h, ?_⟩
    have hnot : ¬ v.len > n := by simp only [Bits.len]; omega
    have hraw : v.rawSlice.length = (v.live.length + 7) / 8 := by
      simp only [Bits.rawSlice]
      rw [chunks8_map_length, List.length_append, hst]
      simp only [padBits, List.length_replicate]
      omega
    have hlen : (packBits (v.live ++ [true])).length = (v.live.length + 8) / 8 := by
      rw [packBits_length, List.length_append]; rfl
    by_cases hm : v.live.length % 8 = 0
    · refine ⟨v.rawSlice ++ [1], v.rawSlice.length + 1, ?_, fun buf => ?_⟩
      · rw [hlen]; simp only [List.length_append, hraw, List.length_cons, List.length_nil]; omega
      · have hm' : v.len % 8 = 0 := hm
        simp only [Bitlist.serializeWithLength, hnot, if_false, if_true, hm',
          List.append_assoc, List.length_append, List.length_cons, List.length_nil]
        congr 2
        omega
    · have hne : v.rawSlice ≠ [] := by
        intro h0
        rw [h0] at hraw
        simp only [List.length_nil] at hraw
        omega
      obtain ⟨b', hb⟩ := orLast_length ((1 : Byte) <<< (v.live.length % 8)) v.rawSlice hne
      refine ⟨b', b'.length, ?_, fun buf => ?_⟩
      · rw [hlen, (hb []).2, hraw]; omega
      · have hm' : ¬ v.len % 8 = 0 := hm
        simp only [Bitlist.serializeWithLength, hnot, if_false, if_true, hm']
        simp only [Bits.len, (hb buf).1, List.length_append]
        congr 2
        omega
  · refine Or.inr ⟨h, .invalidInstance (.bounded n v.len), fun buf => ?_⟩
    have hyes : v.len > n := by simp only [Bits.len]; omega
    simp only [Bitlist.serializeWithLength, hyes, if_true]

mutual

/-- `serialize` succeeds exactly on the values that are in bounds and small, and never panics. -/
theorem impl_total (E : Env) : ∀ (t : Ty) (v : t.Val), Legal t → Fits t → Stored t v →
    SerTotal (t.impl E).toSerializable v (enc t v).length (InBounds t v ∧ Small t v)
  | .uint u, v, hl, hf, _ => Or.inl ⟨⟨trivial, trivial⟩, _, _, rfl,
      impl_serialize E (.uint u) v hl hf trivial trivial⟩
  | .u256, v, hl, hf, _ => Or.inl ⟨⟨trivial, trivial⟩, _, _, rfl,
      impl_serialize E .u256 v hl hf trivial trivial⟩
  | .bool, v, hl, hf, _ => Or.inl ⟨⟨trivial, trivial⟩, _, _, rfl,
      impl_serialize E .bool v hl hf trivial trivial⟩
  | .node, v, hl, hf, _ => Or.inl ⟨⟨trivial, trivial⟩, _, _, rfl,
      impl_serialize E .node v hl hf trivial trivial⟩
  | .array t n, v, hl, hf, hst => by
    have h0 : n ≠ 0 := by have := hl.1; omega
    have h := Serializer.collection_total E (T := (t.impl E).toSerializable) (f := enc t)
      (P := fun x => InBounds t x ∧ Small t x) (impl_isVar E t) (impl_capacity E t hf.1)
      (xs := v.1) (fun x hx => impl_total E t x hl.2 hf.1 (hst x hx))
    refine SerTotal.congr (P := (assemble (v.1.map fun x => (isVar t, enc t x))).length < maxLen ∧
      Each (fun x => InBounds t x ∧ Small t x) v.1) (SerTotal.of_unchanged ?_) ?_
    · show (_ ∧ ∃ bytes n', _ ∧ ∀ buf, (Serializable.array E (t.impl E).toSerializable n).serialize
        v buf = _) ∨ (_ ∧ ∃ e, ∀ buf, (Serializable.array E (t.impl E).toSerializable n).serialize
        v buf = _)
      simp only [Serializable.array, h0, if_false]
      exact h
    · exact ⟨fun h => ⟨fun x hx => (h.2 x hx).1, h.1, fun x hx => (h.2 x hx).2⟩,
        fun h => ⟨h.2.1, fun x hx => ⟨h.1 x hx, h.2.2 x hx⟩⟩⟩
  | .vector t n, v, hl, hf, hst => by
    have h0 : n ≠ 0 := by have := hl.1; omega
    have h := Serializer.collection_total E (T := (t.impl E).toSerializable) (f := enc t)
      (P := fun x => InBounds t x ∧ Small t x) (impl_isVar E t) (impl_capacity E t hf.1)
      (xs := v) (fun x hx => impl_total E t x hl.2 hf.1 (hst x hx))
    refine SerTotal.congr (P := (assemble (List.map (fun x => (isVar t, enc t x)) v)).length < maxLen ∧
      Each (fun x => InBounds t x ∧ Small t x) v) (SerTotal.of_unchanged ?_) ?_
    · show (_ ∧ ∃ bytes n', _ ∧ ∀ buf, (Serializable.vector E (t.impl E).toSerializable n).serialize
        v buf = _) ∨ (_ ∧ ∃ e, ∀ buf, (Serializable.vector E (t.impl E).toSerializable n).serialize
        v buf = _)
      simp only [Serializable.vector, h0, if_false]
      exact h
    · exact ⟨fun h => ⟨fun x hx => (h.2 x hx).1, h.1, fun x hx => (h.2 x hx).2⟩,
        fun h => ⟨h.2.1, fun x hx => ⟨h.1 x hx, h.2.2 x hx⟩⟩⟩
  | .list t n, v, hl, hf, hst => by
    have h := Serializer.collection_total E (T := (t.impl E).toSerializable) (f := enc t)
      (P := fun x => InBounds t x ∧ Small t x) (impl_isVar E t) (impl_capacity E t hf)
      (xs := v) (fun x hx => impl_total E t x hl hf (hst x hx))
    by_cases h0 : List.length v > n
    · refine Or.inr ⟨fun h => ?_, SerError.invalidInstance (.bounded n (List.length v)), [], fun buf => ?_⟩
      · have := h.1.1; omega
      · show (Serializable.list E (t.impl E).toSerializable n).serialize v buf = _
        simp only [Serializable.list, h0, if_true, BufM.ofRes_apply, List.append_nil]
    · refine SerTotal.congr (P := (assemble (List.map (fun x => (isVar t, enc t x)) v)).length < maxLen ∧
        Each (fun x => InBounds t x ∧ Small t x) v) (SerTotal.of_unchanged ?_) ?_
      · show (_ ∧ ∃ bytes n', _ ∧ ∀ buf, (Serializable.list E (t.impl E).toSerializable n).serialize
          v buf = _) ∨ (_ ∧ ∃ e, ∀ buf, (Serializable.list E (t.impl E).toSerializable n).serialize
          v buf = _)
        simp only [Serializable.list, h0, if_false]
        exact h
      · exact ⟨fun h => ⟨⟨by omega, fun x hx => (h.2 x hx).1⟩, h.1, fun x hx => (h.2 x hx).2⟩,
          fun h => ⟨h.2.1, fun x hx => ⟨h.1.2 x hx, h.2.2 x hx⟩⟩⟩
  | .bitvector n, v, hl, _, _ => by
    have h0 : n ≠ 0 := by have : 0 < n := hl; omega
    refine Or.inl ⟨⟨trivial, trivial⟩, packBits v.live, bitvectorByteLength n, rfl, fun buf => ?_⟩
    show Bitvector.serialize n v buf = _
    simp only [Bitvector.serialize, h0, if_false]
    rw [BufM.bind_ok (BufM.append_apply _ _), chunks8_map]
    rfl
  | .bitlist n, v, _, _, hst =>
    SerTotal.of_unchanged (by
      rcases bitlist_total n v hst with ⟨hp, h⟩ | ⟨hp, h⟩
      · exact Or.inl ⟨⟨hp, trivial⟩, h⟩
      · exact Or.inr ⟨fun hh => hp hh.1, h⟩)
  | .option t, v, hl, hf, hst => by
    match v, hst with
    | none, _ =>
      exact Or.inl ⟨⟨fun x hx => by simp at hx, fun x hx => by simp at hx⟩, [0], 1, rfl,
        fun buf => uint_serialize .u8 (0 : BitVec 8) buf⟩
    | some x, hst =>
      have h := selector_total 1 (impl_total E t x hl hf (hst x rfl))
      refine SerTotal.congr (P := InBounds t x ∧ Small t x) h ?_
      constructor
      · rintro ⟨h1, h2⟩
        exact ⟨fun y hy => by cases hy; exact h1, fun y hy => by cases hy; exact h2⟩
      · rintro ⟨h1, h2⟩
        exact ⟨h1 x rfl, h2 x rfl⟩
  | .newtype t, v, hl, hf, hst => impl_total E t v hl hf hst
  | .container fs, v, hl, hf, hst => by
    have h := Serializer.finish_total E (r := (fs.impls E).withElements v {})
      (ps := piecesF fs v) (P := InBoundsF fs v ∧ SmallF fs v)
      (by
        have := impls_withElements_total E fs v hl.2.2 hf.1 hst []
        simp only [List.nil_append] at this
        exact this)
    refine SerTotal.congr (P := (assemble (piecesF fs v)).length < maxLen ∧
      InBoundsF fs v ∧ SmallF fs v) (SerTotal.of_unchanged h) ?_
    exact ⟨fun h => ⟨h.2.1, h.1, h.2.2⟩, fun h => ⟨h.2.1, h.1, h.2.2⟩⟩
  | .union vs, v, hl, hf, hst =>
    impls_serializeV_total E vs v (by
      cases vs with
      | nil => exact hl.1.elim
      | unit rest => exact Or.inr ⟨rfl, hl.1.1⟩
      | data t rest => exact Or.inl hl.1.1) hl.2 hf hst

theorem impls_withElements_total (E : Env) : ∀ (fs : Fields) (v : fs.Val), LegalF fs → FitsF fs →
    StoredF fs v → ∀ ps,
    ((InBoundsF fs v ∧ SmallF fs v) ∧ ∃ qs : List Piece, qs.map (fun p => (p.1, p.2.length)) =
        (ps ++ piecesF fs v).map (fun p => (p.1, p.2.length)) ∧
      (fs.impls E).withElements v (Serializer.ofPieces ps) = .ok (Serializer.ofPieces qs)) ∨
    (¬ (InBoundsF fs v ∧ SmallF fs v) ∧ ∃ e,
      (fs.impls E).withElements v (Serializer.ofPieces ps) = .err e)
  | .nil, _, _, _, _, ps => Or.inl ⟨⟨trivial, trivial⟩, ps, by simp [piecesF], rfl⟩
  | .cons _ t rest, v, hl, hf, hst, ps => by
    have hstep : ((Fields.cons _ t rest).impls E).withElements v (Serializer.ofPieces ps) =
        ((Serializer.ofPieces ps).withElement (t.impl E).toSerializable v.1 >>= fun s' =>
          (rest.impls E).withElements v.2 s') := rfl
    rcases Serializer.withElement_total (impl_capacity E t hf.1)
      (impl_total E t v.1 hl.1 hf.1 hst.1) ps with ⟨hp, b, hlen, he⟩ | ⟨hp, e, he⟩
    · rw [hstep, he]
      simp only [Res.ok_bind]
      rcases impls_withElements_total E rest v.2 hl.2 hf.2 hst.2
        (ps ++ [((t.impl E).isVariableSize, b)]) with ⟨hp2, qs, hq, he2⟩ | ⟨hp2, e, he2⟩
      · refine Or.inl ⟨⟨⟨hp.1, hp2.1⟩, hp.2, hp2.2⟩, qs, ?_, he2⟩
        rw [hq, impl_isVar]
        simp [piecesF, hlen]
      · exact Or.inr ⟨fun hh => hp2 ⟨hh.1.2, hh.2.2⟩, e, he2⟩
    · rw [hstep, he]
      exact Or.inr ⟨fun hh => hp ⟨hh.1.1, hh.2.1⟩, e, rfl⟩

theorem impls_serializeV_total (E : Env) : ∀ (vs : Variants) {i : Nat} (v : vs.Val),
    (noUnitV vs = true ∨ i = 0 ∧ noUnitV (match vs with | .unit r => r | .data _ r => r | .nil => .nil) = true) →
    LegalV vs → FitsV vs → StoredV vs v →
    ((InBoundsV vs v ∧ SmallV vs v) ∧ ∃ bytes n, bytes.length = (encV vs i v).length ∧
      ∀ buf, (vs.impls E).serialize i v buf = (buf ++ bytes, .ok n)) ∨
    (¬ (InBoundsV vs v ∧ SmallV vs v) ∧ ∃ e junk, ∀ buf,
      (vs.impls E).serialize i v buf = (buf ++ junk, .err e))
  | .nil, _, v, _, _, _, _ => Empty.elim v
  | .unit rest, i, .inl _, hn, _, _, _ => by
    have hi : i = 0 := by
      rcases hn with h | h
      · simp [noUnitV] at h
      · exact h.1
    subst hi
    exact Or.inl ⟨⟨trivial, trivial⟩, [0], 1, rfl, fun buf => uint_serialize .u8 (0 : BitVec 8) buf⟩
  | .unit rest, i, .inr v, hn, hl, hf, hst =>
    impls_serializeV_total E rest (i := i + 1) v (by
      rcases hn with h | h
      · simp [noUnitV] at h
      · exact Or.inl h.2) hl hf hst
  | .data t rest, i, .inl v, _, hl, hf, hst =>
    selector_total i (impl_total E t v hl.1 hf.1 hst)
  | .data t rest, i, .inr v, hn, hl, hf, hst =>
    impls_serializeV_total E rest (i := i + 1) v (by
      rcases hn with h | h
      · exact Or.inl h
      · exact Or.inl h.2) hl.2 hf.2 hst

end

/-! ## The buffer after an error -/

theorem writeParts_ne_err (E : Env) : ∀ (parts : List Part) (r : Nat) (buf buf' : Bytes) (e : SerError),
    writeParts E r parts buf ≠ (buf', .err e)
  | [], _, _, _, _ => by simp [writeParts]
  | .fixed data :: rest, r, buf, buf', e => by
    simp only [writeParts]
    rw [BufM.bind_ok (BufM.append_apply _ _)]
    exact writeParts_ne_err E rest r _ buf' e
  | .offset n :: rest, r, buf, buf', e => by
    simp only [writeParts]
    rw [BufM.bind_ok (uint_serialize .u32 _ _)]
    have h4 : (UintTy.u32.bits / 8 == 4) = true := rfl
    simp only [h4, Env.debugAssert_true, Res.lift_ok, BufM.ofRes_ok_bind]
    rcases hadd : E.add32 r (n % u32Mod) with r' | ⟨⟨⟩⟩ | _
    · simp only [Res.lift_ok, BufM.ofRes_ok_bind]
      exact writeParts_ne_err E rest r' _ buf' e
    · simp [BufM.ofRes_panic_bind]

theorem Serializer.serialize_err (E : Env) (s : Serializer) (buf buf' : Bytes) (e : SerError)
    (h : s.serialize E buf = (buf', .err e)) : buf' = buf := by
  simp only [Serializer.serialize] at h
  split at h
  · simp only [BufM.ofRes_apply, Prod.mk.injEq] at h
    exact h.1.symm
  · rw [BufM.bind_apply] at h
    rcases hw : writeParts E (s.fixedLengthsSum % u32Mod) s.parts buf with ⟨b1, r | e' | _⟩
    · rw [hw] at h
      simp only [] at h
      rw [BufM.bind_ok (BufM.append_apply _ _)] at h
      simp at h
    · exact absurd hw (writeParts_ne_err E _ _ _ _ _)
    · rw [hw] at h; simp at h

theorem finish_err {E : Env} {r : Res SerError Serializer} {buf buf' : Bytes} {e : SerError}
    (h : (BufM.ofRes r >>= fun s => s.serialize E) buf = (buf', .err e)) : buf' = buf := by
  rcases r with s | e' | _
  · exact Serializer.serialize_err E s buf buf' e h
  · simp only [BufM.ofRes_err_bind, BufM.ofRes_apply, Prod.mk.injEq] at h
    exact h.1.symm
  · simp [BufM.ofRes_panic_bind] at h

theorem if_err {c : Prop} [Decidable c] {x y : BufM SerError Nat} {buf buf' : Bytes} {e : SerError}
    (hx : x buf = (buf', .err e) → buf' = buf) (hy : y buf = (buf', .err e) → buf' = buf)
    (h : (if c then x else y) buf = (buf', .err e)) : buf' = buf := by
  split at h
  · exact hx h
  · exact hy h

end Ssz
