import Verif.Spec.Recursive
import Verif.Proofs.Builds
import Verif.Proofs.Parts
import Verif.Proofs.PartTrees
import Verif.Props.PartTrees

/-!
# Trees: encodings, the stack, generalized indices, proofs
-/

namespace Ssz

open Spec

namespace Rose

variable {α : Type} {E : Env} {T : SimpleSerialize α} {c : Codec α} {n : Nat}

/-! ## Encodings -/

theorem static_exhausted : Tree.Static (exhausted : SimpleSerialize (Rose α)) := ⟨rfl, rfl, rfl, rfl, rfl, rfl⟩

theorem static_level (E : Env) (T : SimpleSerialize α) (n : Nat) (inner : SimpleSerialize (Rose α)) :
    Tree.Static (level E T n inner) where
  isVariableSize := by
    show (T.isVariableSize || (true || false)) = true
    simp
  sizeHint := by
    show (if (T.isVariableSize || (true || false)) = true then Res.ok 0 else _) = Res.ok 0
    simp
  isCompositeType := rfl
  itemLength := rfl
  chunkCount := rfl
  decoration := rfl

theorem static_impl {base : SimpleSerialize (Rose α)} (hb : Tree.Static base) :
    ∀ k, Tree.Static (impl E T n base k)
  | 0 => hb
  | k + 1 => static_level E T n (impl E T n base k)

theorem encs_eq (c : Codec α) : ∀ cs, Tree.encs c cs = cs.map fun x => (true, Tree.enc c x)
  | [] => rfl
  | x :: xs => by rw [Tree.encs, encs_eq c xs, List.map_cons]

theorem norms_eq (c : Codec α) : ∀ cs, Tree.norms c cs = cs.map (Tree.norm c)
  | [] => rfl
  | x :: xs => by rw [Tree.norms, norms_eq c xs, List.map_cons]

theorem trees_eq (s : α → MTree) (n : Nat) : ∀ cs, Tree.trees s n cs = cs.map (Tree.tree s n)
  | [] => rfl
  | x :: xs => by rw [Tree.trees, trees_eq s n xs, List.map_cons]

/-- The two fields. -/
def parts (E : Env) (n : Nat) (h : Implements T.toSerializable c) {inner : SimpleSerialize (Rose α)}
    {ci : Codec (Rose α)} (hi : Implements inner.toSerializable ci) :
    StructParts (α × (List (Rose α) × Unit)) :=
  .cons "value" T c h (.cons "children" (SimpleSerialize.list E inner n) (ci.list n) (hi.list E n) .nil)

theorem parts_container (h : Implements T.toSerializable c) (hs : c.size + 4 < 2 ^ 63)
    {inner : SimpleSerialize (Rose α)} {ci : Codec (Rose α)} (hi : Implements inner.toSerializable ci) :
    Implements (SimpleSerialize.container E (fieldImpls E T n inner)).toSerializable
      (parts E n h hi).codec :=
  StructParts.container E (parts E n h hi) (Nat.succ_pos _) (by
    show (if c.var then 4 else c.size) + (4 + 0) < 2 ^ 63
    split <;> omega)

theorem implements_impl (h : Implements T.toSerializable c) (hs : c.size + 4 < 2 ^ 63)
    {base : SimpleSerialize (Rose α)} (hb : Tree.Static base) :
    ∀ k, Implements (impl E T n base k).toSerializable (Tree.codec c n k)
  | 0 => {
      isVariableSize := hb.isVariableSize
      sizeHint := hb.sizeHint
      size_lt := by show 0 < 2 ^ 63; decide
      size_pos := nofun
      length := nofun
      serialize := fun _ hv => hv.elim
      deserialize := fun _ hv => hv.elim }
  | k + 1 => by
    have ih := implements_impl h hs hb k
    have hc := parts_container (E := E) (n := n) h hs ih
    have hval : ∀ v : Rose α, Tree.Within c.valid n (k + 1) v → (parts E n h ih).codec.valid v.fields := by
      intro v hv
      obtain ⟨a, cs⟩ := v
      exact ⟨hv.1, hv.2, trivial⟩
    have henc : ∀ v : Rose α, (parts E n h ih).codec.enc v.fields = Tree.enc c v := by
      intro v
      obtain ⟨a, cs⟩ := v
      rw [Tree.enc, encs_eq]
      rfl
    refine ⟨(static_impl hb (k + 1)).isVariableSize, (static_impl hb (k + 1)).sizeHint,
      by show 0 < 2 ^ 63; decide, nofun, nofun, fun v hv hlen buf => ?_, fun v hv hlen => ?_⟩
    · have := hc.serialize v.fields (hval v hv) (by rw [henc]; exact hlen) buf
      rw [henc] at this
      exact this
    · have := hc.deserialize v.fields (hval v hv) (by rw [henc]; exact hlen)
      rw [henc] at this
      show (Res.map ofFields _) = _
      rw [show (Tree.codec c n (k + 1)).enc v = Tree.enc c v from rfl, this]
      obtain ⟨a, cs⟩ := v
      show Res.ok (node (c.norm a) (cs.map (Tree.norm c))) = _
      rw [← norms_eq]
      rfl

theorem yields_impl {P : α → Prop} (h : Spec.Yields T.toSerializable P) :
    ∀ k, Spec.Yields (impl E T n exhausted k).toSerializable (Tree.Within P n k)
  | 0 => fun _ _ h => nomatch h
  | k + 1 => by
    intro b v hd
    have ih := yields_impl h k
    have hd : Res.map ofFields _ = _ := hd
    obtain ⟨w, hw, rfl⟩ := Res.map_eq_ok.1 hd
    obtain ⟨d, -, hw⟩ := Res.bind_eq_ok.mp hw
    obtain ⟨spans, -, hw⟩ := Res.bind_eq_ok.mp hw
    simp only [fieldImpls, FieldImpls.initFields, Res.bind_eq_ok] at hw
    obtain ⟨_, -, _, -, p1, -, a, ha, r, ⟨_, -, _, -, p2, -, cs, hcs, u, -, hr⟩, hw⟩ := hw
    injection hw with hw
    injection hr with hr
    subst hw hr
    have := C58_list_bounds E _ _ n ih _ _ hcs
    exact ⟨h _ _ ha, this⟩

theorem within_mono {P : α → Prop} : ∀ {k j : Nat}, k ≤ j → ∀ v, Tree.Within P n k v →
    Tree.Within P n j v
  | 0, _, _, _, h => h.elim
  | k + 1, j, hj, .node a cs, h => by
    obtain ⟨j, rfl⟩ : ∃ i, j = i + 1 := ⟨j - 1, by omega⟩
    exact ⟨h.1, h.2.1, fun x hx => within_mono (by omega) x (h.2.2 x hx)⟩

theorem bounds_of_within {P : α → Prop} : ∀ k v, Tree.Within P n k v → Tree.Bounds P n v
  | 0, _, h => h.elim
  | k + 1, .node _ _, h => .node h.1 h.2.1 fun x hx => bounds_of_within k x (h.2.2 x hx)

theorem within_of_bounds {P : α → Prop} {v : Rose α} (h : Tree.Bounds P n v) :
    ∃ k, Tree.Within P n k v := by
  induction h with
  | @node a cs ha hl hcs ih =>
    have : ∃ k, ∀ x ∈ cs, Tree.Within P n k x := by
      clear hl hcs
      induction cs with
      | nil => exact ⟨0, nofun⟩
      | cons x xs ihx =>
        obtain ⟨k, hk⟩ := ihx fun y hy => ih y (List.mem_cons_of_mem _ hy)
        obtain ⟨j, hj⟩ := ih x List.mem_cons_self
        refine ⟨max j k, fun y hy => ?_⟩
        rcases List.mem_cons.1 hy with rfl | hy
        · exact within_mono (Nat.le_max_left _ _) _ hj
        · exact within_mono (Nat.le_max_right _ _) _ (hk y hy)
    obtain ⟨k, hk⟩ := this
    exact ⟨k + 1, ha, hl, hk⟩

/-! ## More stack changes an overflow only -/

theorem refines_via {U U' : SimpleSerialize (α × (List (Rose α) × Unit))} (h : Refines U U') :
    Refines (via U) (via U') where
  isVariableSize := h.isVariableSize
  isCompositeType := h.isCompositeType
  decoration := by
    funext v
    show U.decoration v.fields = U'.decoration v.fields
    rw [h.decoration]
  sizeHint := h.sizeHint
  serialize v := h.serialize v.fields
  deserialize b := Below.map (h.deserialize b)
  hashTreeRoot v := h.hashTreeRoot v.fields
  itemLength := h.itemLength
  chunkCount := h.chunkCount
  index := h.index
  chunks v := h.chunks v.fields
  proveElement v := h.proveElement v.fields

theorem refines_exhausted {base : SimpleSerialize (Rose α)} (hb : Tree.Static base) :
    Refines exhausted base where
  isVariableSize := hb.isVariableSize.symm
  isCompositeType := hb.isCompositeType.symm
  decoration := hb.decoration.symm
  sizeHint := Below.of_eq hb.sizeHint.symm
  serialize _ := fun _ => Or.inl rfl
  deserialize _ := Below.panic
  hashTreeRoot _ := Below.panic
  itemLength := Below.of_eq hb.itemLength.symm
  chunkCount := Below.of_eq hb.chunkCount.symm
  index _ _ := Below.panic
  chunks _ := Below.panic
  proveElement _ _ _ := Below.panic

theorem refines_impl {base base' : SimpleSerialize (Rose α)} (h : Refines base base') :
    ∀ k, Refines (impl E T n base k) (impl E T n base' k) := by
  obtain ⟨d, H⟩ := E
  intro k
  induction k with
  | zero => exact h
  | succ k ih =>
    exact refines_via (refines_container (H := H) (dbg := d) (dbg' := d)
      (.cons (Refines.refl T) (.cons (refines_list (H := H) (dbg := d) (dbg' := d) ih n) .nil)))

theorem impl_add (base : SimpleSerialize (Rose α)) (j : Nat) : ∀ k,
    impl E T n base (k + j) = impl E T n (impl E T n base j) k
  | 0 => by rw [Nat.zero_add]; rfl
  | k + 1 => by
    rw [Nat.add_right_comm]
    show level E T n (impl E T n base (k + j)) = level E T n _
    rw [impl_add base j k]

/-- More room: the same result, unless there was an overflow. -/
theorem refines_more (E : Env) (T : SimpleSerialize α) (n k j : Nat) :
    Refines (impl E T n exhausted k) (impl E T n exhausted (k + j)) := by
  rw [impl_add]
  exact refines_impl (refines_exhausted (static_impl static_exhausted j)) k

/-! ## How deep short inputs can go -/

/-- The two decode inputs of fewer than `m` bytes alike. -/
def Alike (m : Nat) (U U' : Serializable α) : Prop :=
  ∀ b : Bytes, b.length < m → b.length < 2 ^ 63 → U.deserialize b = U'.deserialize b

theorem alike_spans {U U' : Serializable α} {m : Nat} (h : Alike m U U') {b : Bytes}
    (hb : b.length < m + 4) (hlen : b.length < 2 ^ 63) :
    ∀ os : List Nat, (∀ o, os[0]? = some o → 4 ≤ o ∨ os.length = 1) →
      deserializeSpans U b os = deserializeSpans U' b os
  | [], _ => rfl
  | [_], _ => rfl
  | o :: o' :: rest, h0 => by
    have h1 : 4 ≤ o := (h0 o rfl).resolve_right (by simp)
    unfold deserializeSpans
    split
    · rfl
    · rename_i hle
      have ih := alike_spans h hb hlen (o' :: rest) (fun p hp => by
        have : o' = p := by simpa using hp
        omega)
      cases hs : (slice b o o' : Res DeError Bytes) with
      | ok p =>
        obtain ⟨h2, h3, h4⟩ := slice_eq_ok.1 hs
        have hp : p.length ≤ b.length - o := by rw [h4]; simp
        simp only [Res.ok_bind]
        rw [h p (by omega) (by omega), ih]
      | err e => rfl
      | panic => rfl

theorem alike_list {U U' : Serializable α} {m : Nat} (hv : U.isVariableSize = true)
    (hv' : U'.isVariableSize = true) (h : Alike m U U') :
    Alike (m + 4) (Serializable.list E U n) (Serializable.list E U' n) := by
  intro b hb hlen
  have key : deserializeVariableHomogeneousComposite U b =
      deserializeVariableHomogeneousComposite U' b := by
    unfold deserializeVariableHomogeneousComposite
    split
    · rfl
    · cases hw : getRange b 0 4 with
      | none => rfl
      | some w =>
        simp only
        cases ho : deserializeU32 w with
        | err e => rfl
        | panic => rfl
        | ok o =>
          simp only [Res.ok_bind]
          split
          · rfl
          · split
            · rfl
            · rename_i hle hmod
              cases hs : (slice b 0 o : Res DeError Bytes) with
              | err e => rfl
              | panic => rfl
              | ok hd =>
                simp only [Res.ok_bind]
                cases hm : Res.mapList deserializeU32 (chunksExact 4 hd) with
                | err e => rfl
                | panic => rfl
                | ok os =>
                  simp only [Res.ok_bind]
                  refine alike_spans h hb hlen _ fun p hp => ?_
                  obtain ⟨-, -, hhd⟩ := slice_eq_ok.1 hs
                  simp only [List.drop_zero, Nat.sub_zero] at hhd
                  by_cases h0 : o = 0
                  · subst h0
                    rw [hhd, List.take_zero, chunksExact, dif_neg (by simp)] at hm
                    injection hm with hm
                    subst hm
                    exact Or.inr rfl
                  · left
                    have h4 : 4 ≤ o := by omega
                    have hhl : hd.length = o := by rw [hhd]; simp; omega
                    rw [chunksExact, dif_pos ⟨by decide, by omega⟩] at hm
                    have hw' : hd.take 4 = w := by
                      rw [hhd, List.take_take, Nat.min_eq_left h4]
                      unfold getRange at hw
                      split at hw
                      · injection hw
                      · cases hw
                    rw [hw', Res.mapList, ho] at hm
                    simp only at hm
                    split at hm
                    · injection hm with hm
                      subst hm
                      have : o = p := by simpa using hp
                      omega
                    · cases hm
                    · cases hm
  simp only [Serializable.list, checkListLength, deserializeHomogeneousComposite, hv, hv', if_true, key]

theorem initFields_fields {inner : SimpleSerialize (Rose α)} {b p q : Bytes} {v : Bool}
    {spans : List Nat} (h : SpanOk b spans [(v, p), (true, q)]) :
    (fieldImpls E T n inner).initFields b spans 0 = (do
      let a ← T.deserialize p
      let cs ← (Serializable.list E inner.toSerializable n).deserialize q
      .ok (a, (cs, ()))) := by
  match spans, h with
  | i :: j :: k :: l :: rest, h =>
    obtain ⟨h1, h2, -⟩ := h
    show (slice b i j >>= fun piece => T.deserialize piece >>= fun v =>
      (slice b k l >>= fun piece =>
        (Serializable.list E inner.toSerializable n).deserialize piece >>= fun w =>
        Res.ok () >>= fun u => Res.ok (w, u)) >>= fun vs => Res.ok (v, vs)) = _
    rw [h1, Res.ok_bind]
    congr 1
    funext a
    rw [h2, Res.ok_bind]
    cases (Serializable.list E inner.toSerializable n).deserialize q <;> rfl
  | [_, _], h => exact h.2.elim
  | [_, _, _], h => exact h.2.elim

theorem parse_fields (h : Implements T.toSerializable c) (inner : SimpleSerialize (Rose α)) (b : Bytes) :
    (fieldImpls E T n inner).parseAll E b {} = parseShape E b [(c.var, c.size), (true, 0)] {} := by
  have := StructParts.parseAll_eq E b (parts E n h
    (inner := exhausted) (ci := ⟨true, 0, fun _ => False, fun _ => [], id⟩)
    ⟨rfl, rfl, by show 0 < 2 ^ 63; decide, nofun, nofun, fun _ h => h.elim, fun _ h => h.elim⟩) {}
  exact this

theorem level_deserialize (inner : SimpleSerialize (Rose α)) (h : Implements T.toSerializable c)
    (b : Bytes) : (level E T n inner).deserialize b =
      ((parseShape E b [(c.var, c.size), (true, 0)] {} >>= fun d => d.finalize E b) >>= fun spans =>
        (fieldImpls E T n inner).initFields b spans 0).map ofFields := by
  show Res.map ofFields ((fieldImpls E T n inner).parseAll E b {} >>= fun d =>
    d.finalize E b >>= fun spans => (fieldImpls E T n inner).initFields b spans 0) = _
  rw [parse_fields h, Res.bind_assoc]

theorem alike_level (h : Implements T.toSerializable c) (hs : c.size + 4 < 2 ^ 63) {m : Nat}
    {inner inner' : SimpleSerialize (Rose α)} (hv : inner.isVariableSize = true)
    (hv' : inner'.isVariableSize = true) (ha : Alike m inner.toSerializable inner'.toSerializable) :
    Alike (m + Tree.overhead c) (level E T n inner).toSerializable (level E T n inner').toSerializable := by
  intro b hb hlen
  rw [level_deserialize inner h, level_deserialize inner' h]
  congr 1
  cases hd : (parseShape E b [(c.var, c.size), (true, 0)] {} >>= fun d => d.finalize E b) with
  | err e => rfl
  | panic => rfl
  | ok spans =>
    simp only [Res.ok_bind]
    have hsl : shapeLen [(c.var, c.size), (true, 0)] = (if c.var then 4 else c.size) + 4 := rfl
    obtain ⟨ps, h1, h2, h3, -⟩ := container_sound E b hlen _ (by rw [hsl]; split <;> omega) spans hd
    have hl := headLen_of_hasShape _ _ h1
    rw [hsl] at hl
    match ps, h1 with
    | [(v, p), (w, q)], h1 =>
      obtain ⟨-, -, hw, -, -⟩ := h1
      have hw : w = true := hw
      subst hw
      have hsp := spanOk_assemble [(v, p), (true, q)]
      rw [← h2, ← h3] at hsp
      rw [initFields_fields hsp, initFields_fields hsp]
      have hq : q.length < m + 4 := by
        have h4 := assemble_length [(v, p), (true, q)]
        have h5 : q.length ≤ (tails [(v, p), (true, q)]).length := by simp [tails]
        rw [← h2, hl] at h4
        unfold Tree.overhead at hb
        omega
      have hq' : q.length ≤ b.length := by
        rw [h2]
        exact piece_length_le (p := (true, q)) (by simp)
      rw [alike_list hv hv' ha q hq (by omega)]

theorem alike_impl (h : Implements T.toSerializable c) (hs : c.size + 4 < 2 ^ 63)
    {base base' : SimpleSerialize (Rose α)} (hb : Tree.Static base) (hb' : Tree.Static base') :
    ∀ k, Alike (k * Tree.overhead c) (impl E T n base k).toSerializable (impl E T n base' k).toSerializable
  | 0 => fun b hb => by omega
  | k + 1 => by
    rw [Nat.succ_mul]
    exact alike_level h hs (static_impl hb k).isVariableSize (static_impl hb' k).isVariableSize
      (alike_impl h hs hb hb' k)

/-! ## Short inputs that go deep -/

/-- The encoding `b` of a child inside of `k` levels. -/
def wrapBytes (c : Codec α) (a : α) (b : Bytes) : Nat → Bytes
  | 0 => b
  | k + 1 => assemble [(c.var, c.enc a), (true, assemble [(true, wrapBytes c a b k)])]

/-- The value. -/
def wrap (a : α) (x : Rose α) : Nat → Rose α
  | 0 => x
  | k + 1 => node a [wrap a x k]

theorem wrap_injective (a : α) {x y : Rose α} : ∀ k, wrap a x k = wrap a y k → x = y
  | 0, h => h
  | k + 1, h => by
    injection h with _ h
    injection h with h
    exact wrap_injective a k h

theorem wrapBytes_length (h : Implements T.toSerializable c) {a : α} (ha : c.valid a) (b : Bytes) :
    ∀ k, (wrapBytes c a b k).length =
      k * (Tree.overhead c + if c.var then (c.enc a).length else 0) + b.length
  | 0 => by simp [wrapBytes]
  | k + 1 => by
    have ih := wrapBytes_length h ha b k
    rw [wrapBytes, assemble_length]
    have h2 : (assemble [(true, wrapBytes c a b k)]).length = 4 + (wrapBytes c a b k).length := by
      rw [assemble_length]
      simp [headLen, headSize, tails]
    have h1 := h.length
    unfold Tree.overhead at *
    rw [Nat.succ_mul]
    cases hv : c.var with
    | true =>
      simp only [hv, headLen, headSize, tails, if_true, List.map_cons, List.map_nil, List.sum_cons,
        List.sum_nil, List.flatMap_cons, List.flatMap_nil, List.length_append, List.length_nil] at ih ⊢
      omega
    | false =>
      have := h1 hv a ha
      simp only [hv, headLen, headSize, tails, if_true, List.map_cons, List.map_nil, List.sum_cons,
        List.sum_nil, List.flatMap_cons, List.flatMap_nil, List.length_append, List.length_nil,
        Bool.false_eq_true, if_false] at ih ⊢
      omega

theorem enc_wrap (a : α) (x : Rose α) : ∀ k,
    Tree.enc c (wrap a x k) = wrapBytes c a (Tree.enc c x) k
  | 0 => rfl
  | k + 1 => by
    rw [wrap, Tree.enc, encs_eq, List.map_cons, List.map_nil, enc_wrap a x k]
    rfl

theorem within_wrap {P : α → Prop} {a : α} (ha : P a) (hn : 1 ≤ n) {x : Rose α} {j : Nat}
    (hx : Tree.Within P n j x) : ∀ k, Tree.Within P n (j + k) (wrap a x k)
  | 0 => hx
  | k + 1 => ⟨ha, hn, fun y hy => by
      rw [List.mem_singleton.1 hy]
      exact within_wrap ha hn hx k⟩

theorem wrap_deserialize (h : Implements T.toSerializable c) (hs : c.size + 4 < 2 ^ 63) {a : α}
    (ha : c.valid a) (hn : 1 ≤ n) {base : SimpleSerialize (Rose α)} (hb : Tree.Static base) {b : Bytes}
    {x : Rose α} (hx : base.deserialize b = .ok x) :
    ∀ k, (wrapBytes c a b k).length < 2 ^ 32 →
      (impl E T n base k).deserialize (wrapBytes c a b k) = .ok (wrap (c.norm a) x k)
  | 0, _ => hx
  | k + 1, hlen => by
    have h2 : (assemble [(true, wrapBytes c a b k)]).length ≤ (wrapBytes c a b (k + 1)).length :=
      piece_length_le (p := (true, assemble [(true, wrapBytes c a b k)])) (by simp)
    have h3 : (wrapBytes c a b k).length ≤ (assemble [(true, wrapBytes c a b k)]).length :=
      piece_length_le (p := (true, wrapBytes c a b k)) (by simp)
    have h4 : (c.enc a).length ≤ (wrapBytes c a b (k + 1)).length :=
      piece_length_le (p := (c.var, c.enc a)) (by simp)
    have ih := wrap_deserialize h hs ha hn hb hx k (by omega)
    show (level E T n (impl E T n base k)).deserialize _ = _
    rw [level_deserialize _ h]
    have hc := container_complete E [(c.var, c.enc a), (true, assemble [(true, wrapBytes c a b k)])]
      [(c.var, c.size), (true, 0)] ⟨rfl, fun hv => h.length hv a ha, rfl, nofun, trivial⟩
      (addressed_of_length hlen) (Nat.lt_trans hlen (by decide))
    have hl : (Serializable.list E (impl E T n base k).toSerializable n).deserialize
        (assemble [(true, wrapBytes c a b k)]) = .ok [wrap (c.norm a) x k] := by
      refine list_deserialize_ok ?_ ?_ hn
      · simp only [checkListLength, (static_impl hb k).isVariableSize, if_true]
      · have := homogeneous_complete E (T := (impl E T n base k).toSerializable)
          (static_impl hb k).isVariableSize (static_impl hb k).sizeHint [wrapBytes c a b k] nofun nofun
          (fun _ => addressed_of_length (ps := [(true, wrapBytes c a b k)])
            (Nat.lt_of_le_of_lt h2 hlen))
        refine this.trans ?_
        rw [Res.mapList, ih]
        rfl
    show Res.map ofFields ((_ : Res DeError _) >>= _) = _
    rw [wrapBytes, hc, Res.ok_bind, initFields_fields (spanOk_assemble _),
      h.deserialize a ha (by omega), Res.ok_bind, hl]
    rfl

/-- A panic where two ways to go on would give different results. -/
theorem overflow (h : Implements T.toSerializable c) (hs : c.size + 4 < 2 ^ 63) {a : α}
    (ha : c.valid a) (hn : 1 ≤ n) (b : Bytes) (k : Nat) (hlen : (wrapBytes c a b k).length < 2 ^ 32) :
    (impl E T n exhausted k).deserialize (wrapBytes c a b k) = .panic := by
  let f : Rose α → SimpleSerialize (Rose α) := fun x => { exhausted with deserialize := fun _ => .ok x }
  have hf : ∀ x, Tree.Static (f x) := fun x => ⟨rfl, rfl, rfl, rfl, rfl, rfl⟩
  have key : ∀ x, (impl E T n exhausted k).deserialize (wrapBytes c a b k) = .panic ∨
      (impl E T n exhausted k).deserialize (wrapBytes c a b k) = .ok (wrap (c.norm a) x k) := by
    intro x
    rw [← wrap_deserialize h hs ha hn (hf x) (b := b) (x := x) rfl k hlen]
    exact (refines_impl (refines_exhausted (hf x)) k).deserialize _
  rcases key (node a []) with h1 | h1
  · exact h1
  · rcases key (node a [node a []]) with h2 | h2
    · exact h2
    · rw [h1] at h2
      injection h2 with h2
      have := wrap_injective _ k h2
      injection this with _ h3
      cases h3

/-! ## Generalized indices -/

/-- The paths that need no more than `k` calls inside each other. -/
def deep (w : Walk) (n : Nat) : Nat → Walk
  | 0 => fun _ => none
  | k + 1 => .struct [("value", w), ("children", (deep w n k).list 32 n)]

/-- One level of `Tree.walk`. -/
def stepWalk (w : Walk) (n : Nat) (r : Walk) : Walk
  | [] => some 1
  | [.field f] =>
    if f = "value" then w.below 2 [] else if f = "children" then some 3 else none
  | .field f :: e :: rest =>
    if f = "value" then w.below 2 (e :: rest)
    else if f = "children" then
      match e with
      | .index i =>
        if i < n then (r rest).map fun g => gcat 3 (gcat (2 * 2 ^ depthFor n + i) g) else none
      | .length => if rest = [] then some 7 else none
      | _ => none
    else none
  | _ :: _ => none

theorem walk_step (w : Walk) (n : Nat) : ∀ path, Tree.walk w n path = stepWalk w n (Tree.walk w n) path
  | [] => rfl
  | [.field _] => rfl
  | .field _ :: .index _ :: _ => rfl
  | .field _ :: .length :: _ => rfl
  | .field _ :: .selector :: _ => rfl
  | .field _ :: .field _ :: _ => rfl
  | .index _ :: _ => rfl
  | .length :: _ => rfl
  | .selector :: _ => rfl

theorem deep_step (w : Walk) (n k : Nat) (path : List PathElement) :
    deep w n (k + 1) path = stepWalk w n (deep w n k) path := by
  have h1 : (n * 32 + 31) / 32 = n := by omega
  have h2 : depthFor 2 = 1 := by decide
  have h3 : gcat 3 3 = 7 := by decide
  match path with
  | [] => rfl
  | .index _ :: _ => rfl
  | .length :: _ => rfl
  | .selector :: _ => rfl
  | .field f :: rest =>
    by_cases hf : f = "value"
    · subst hf
      cases rest <;> simp [deep, Walk.struct, Walk.field, stepWalk, h2]
    · by_cases hf' : f = "children"
      · subst hf'
        match rest with
        | [] => simp [deep, Walk.struct, Walk.field, stepWalk, h2, Walk.below, Walk.list]
        | .field _ :: _ => simp [deep, Walk.struct, Walk.field, stepWalk, Walk.below, Walk.list]
        | .selector :: _ => simp [deep, Walk.struct, Walk.field, stepWalk, Walk.below, Walk.list]
        | .length :: [] =>
          simp [deep, Walk.struct, Walk.field, stepWalk, h2, Walk.below, Walk.list, Walk.stop, h3]
        | .length :: _ :: _ =>
          simp [deep, Walk.struct, Walk.field, stepWalk, h2, Walk.below, Walk.list, Walk.stop]
        | .index i :: rest =>
          simp only [deep, Walk.struct, Walk.field, stepWalk, h2, Walk.below, Walk.list, h1, hf, if_false,
            if_true, Option.map_some, List.length_cons, List.length_nil,
            Nat.mul_div_cancel i (show 0 < 32 by decide)]
          by_cases hi : i < n
          · simp only [hi, if_true, Option.map_map]
            rfl
          · simp only [hi, if_false, Option.map_none]
      · cases rest <;> simp [deep, Walk.struct, Walk.field, stepWalk, hf, hf']

theorem deep_walk (w : Walk) (n : Nat) : ∀ k path g, deep w n k path = some g →
    Tree.walk w n path = some g
  | 0, _, _, h => nomatch h
  | k + 1, path, g, h => by
    rw [deep_step] at h
    rw [walk_step]
    match path, h with
    | [], h => exact h
    | [.field _], h => exact h
    | .field f :: .index i :: rest, h =>
      simp only [stepWalk] at h ⊢
      split at h
      · rw [if_pos ‹_›]; exact h
      · rw [if_neg ‹_›]
        split at h
        · rw [if_pos ‹_›]
          split at h
          · rw [if_pos ‹_›]
            obtain ⟨g', h1, h2⟩ := Option.map_eq_some_iff.1 h
            rw [deep_walk w n k rest g' h1, Option.map_some, h2]
          · cases h
        · cases h
    | .field _ :: .length :: _, h => exact h
    | .field _ :: .selector :: _, h => exact h
    | .field _ :: .field _ :: _, h => exact h

theorem walk_deep (w : Walk) (n : Nat) : ∀ k path, path.length < 2 * k →
    deep w n k path = Tree.walk w n path
  | 0, _, h => by omega
  | k + 1, path, h => by
    rw [deep_step, walk_step]
    match path, h with
    | [], _ => rfl
    | [.field _], _ => rfl
    | .field f :: .index i :: rest, h =>
      simp only [stepWalk]
      rw [walk_deep w n k rest (by simp only [List.length_cons] at h; omega)]
    | .field _ :: .length :: _, _ => rfl
    | .field _ :: .selector :: _, _ => rfl
    | .field _ :: .field _ :: _, _ => rfl
    | .index _ :: _, _ => rfl
    | .length :: _, _ => rfl
    | .selector :: _, _ => rfl

theorem resolves_impl {w : Walk} (h : Resolves E T.computeGeneralizedIndex w) (hn : n ≤ 2 ^ 56) :
    ∀ k, Resolves E (impl E T n exhausted k).computeGeneralizedIndex (deep w n k)
  | 0 => ⟨nofun, nofun, nofun⟩
  | k + 1 => C66_struct E (fieldImpls E T n (impl E T n exhausted k)) _
      ⟨_, _, rfl, h, _, _, rfl, C66_list E _ _ 32 n (static_impl static_exhausted k).itemLength
        (by decide) (by omega) (resolves_impl h hn k), rfl⟩ (by show 2 ≤ 2 ^ 56; decide)

/-! ## Roots and proofs -/

theorem treeOf_via {U : SimpleSerialize (α × (List (Rose α) × Unit))} {v : Rose α} {s : MTree}
    (h : TreeOf E U v.fields s) : TreeOf E (via U) v s := ⟨h.root, h.proof⟩

theorem treeOf_impl {P : α → Prop} {s : α → MTree} (h : ∀ a, P a → TreeOf E T a (s a)) (hn : n ≤ 2 ^ 56)
    {base : SimpleSerialize (Rose α)} (hb : Tree.Static base) :
    ∀ k v, Tree.Within P n k v → TreeOf E (impl E T n base k) v (Tree.tree s n v)
  | 0, _, hv => hv.elim
  | k + 1, .node a cs, hv => by
    have hl := C67_list E (impl E T n base k) n cs (Tree.tree s n) (static_impl hb k).isCompositeType
      (static_impl hb k).itemLength (fun x hx => treeOf_impl h hn hb k x (hv.2.2 x hx)) hv.2.1 hn
    have := C67_struct E (fieldImpls E T n (impl E T n base k)) (a, (cs, ())) _
      ⟨_, _, rfl, h a hv.1, _, _, rfl, hl, rfl⟩ (by show 2 ≤ 2 ^ 56; decide)
    have ht : Tree.tree s n (.node a cs) = full (depthFor 2)
        [s a, .node (full (depthFor n) (cs.map (Tree.tree s n))) (numLeaf cs.length)] := by
      rw [Tree.tree, trees_eq, show depthFor 2 = 1 by decide]
      simp [full]
    rw [ht]
    exact treeOf_via this

end Rose

end Ssz
