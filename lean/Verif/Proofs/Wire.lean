import Verif.Proofs.Facts
import Verif.Proofs.Accept
import Verif.Proofs.Root
import Verif.Spec.Wire

/-!
# Types that are encoded alike
-/

namespace Ssz

open Spec

mutual

theorem wire_isVar : ∀ {t t' : Ty}, Wire t t' → isVar t' = isVar t
  | _, _, .same _ => rfl
  | _, _, .array r _ => (wire_isVar r :)
  | _, _, .vector r _ => (wire_isVar r :)
  | _, _, .arrayVector r _ => (wire_isVar r :)
  | _, _, .list _ _ _ => rfl
  | _, _, .bitlist _ _ => rfl
  | _, _, .option _ => rfl
  | _, _, .optionUnion _ => rfl
  | _, _, .unionOption _ => rfl
  | _, _, .wrap r => (wire_isVar r :)
  | _, _, .unwrap r => (wire_isVar r :)
  | _, _, .container r => wire_isVarF r
  | _, _, .union _ => rfl

theorem wire_isVarF : ∀ {fs fs' : Fields}, WireF fs fs' → isVarF fs' = isVarF fs
  | _, _, .nil => rfl
  | _, _, .cons _ _ r rs => by rw [isVarF, isVarF, wire_isVar r, wire_isVarF rs]

end

mutual

theorem wire_fixedLen : ∀ {t t' : Ty}, Wire t t' → fixedLen t' = fixedLen t
  | _, _, .same _ => rfl
  | _, _, .array r n => congrArg (· * n) (wire_fixedLen r)
  | _, _, .vector r n => congrArg (· * n) (wire_fixedLen r)
  | _, _, .arrayVector r n => congrArg (· * n) (wire_fixedLen r)
  | _, _, .list _ _ _ => rfl
  | _, _, .bitlist _ _ => rfl
  | _, _, .option _ => rfl
  | _, _, .optionUnion _ => rfl
  | _, _, .unionOption _ => rfl
  | _, _, .wrap r => (wire_fixedLen r :)
  | _, _, .unwrap r => (wire_fixedLen r :)
  | _, _, .container r => by rw [fixedLen, fixedLen, wire_isVarF r, wire_fixedLenF r]
  | _, _, .union _ => rfl

theorem wire_fixedLenF : ∀ {fs fs' : Fields}, WireF fs fs' → fixedLenF fs' = fixedLenF fs
  | _, _, .nil => rfl
  | _, _, .cons _ _ r rs => by
    rw [fixedLenF, fixedLenF, wire_isVar r, wire_fixedLen r, wire_fixedLenF rs]

end

theorem wire_count : ∀ {fs fs' : Fields}, WireF fs fs' → countF fs' = countF fs
  | _, _, .nil => rfl
  | _, _, .cons _ _ _ rs => by rw [countF, countF, wire_count rs]

mutual

/-- The encoding stays. -/
theorem enc_conv : ∀ {t t' : Ty} (r : Wire t t') (v : t.Val), enc t' (conv r v) = enc t v
  | _, _, .same _, _ => rfl
  | _, _, .array r _, v => enc_map r v.1
  | _, _, .vector r _, v => enc_map r v
  | _, _, .arrayVector r _, v => enc_map r v.1
  | _, _, .list r _ _, v => enc_map r v
  | _, _, .bitlist _ _, _ => rfl
  | _, _, .option r, v => by
    match v with
    | none => rfl
    | some x => exact congrArg (1 :: ·) (enc_conv r x)
  | _, _, .optionUnion r, v => by
    match v with
    | none => rfl
    | some x => exact congrArg (1 :: ·) (enc_conv r x)
  | _, _, .unionOption r, v => by
    match v with
    | .inl _ => rfl
    | .inr (.inl x) => exact congrArg (1 :: ·) (enc_conv r x)
    | .inr (.inr x) => exact Empty.elim x
  | _, _, .wrap r, v => enc_conv r v
  | _, _, .unwrap r, v => enc_conv r v
  | _, _, .container r, v => congrArg assemble (pieces_convF r v)
  | _, _, .union r, v => enc_convV r 0 v

theorem enc_map : ∀ {t t' : Ty} (r : Wire t t') (vs : List t.Val),
    assemble ((vs.map (conv r)).map fun x => (isVar t', enc t' x)) =
      assemble (vs.map fun x => (isVar t, enc t x))
  | _, _, r, vs => by
    rw [List.map_map, wire_isVar r]
    congr 1
    refine List.map_congr_left fun x _ => ?_
    exact congrArg (Prod.mk _) (enc_conv r x)

theorem pieces_convF : ∀ {fs fs' : Fields} (r : WireF fs fs') (v : fs.Val),
    piecesF fs' (convF r v) = piecesF fs v
  | _, _, .nil, _ => rfl
  | _, _, .cons _ _ r rs, v => by
    simp only [piecesF, convF]
    rw [wire_isVar r, enc_conv r, pieces_convF rs]

theorem enc_convV : ∀ {vs vs' : Variants} (r : WireV vs vs') (i : Nat) (v : vs.Val),
    encV vs' i (convV r v) = encV vs i v
  | _, _, .nil, _, v => Empty.elim v
  | _, _, .unit _, _, .inl _ => rfl
  | _, _, .unit rs, i, .inr v => enc_convV rs (i + 1) v
  | _, _, .data r _, i, .inl v => congrArg (BitVec.ofNat 8 i :: ·) (enc_conv r v)
  | _, _, .data _ rs, i, .inr v => enc_convV rs (i + 1) v

end

theorem each_map {α β : Type} {f : α → β} {P : α → Prop} {Q : β → Prop} (h : ∀ x, P x ↔ Q (f x))
    (l : List α) : Each Q (l.map f) ↔ Each P l := by
  constructor
  · exact fun hq x hx => (h x).mpr (hq _ (List.mem_map_of_mem hx))
  · intro hp y hy
    obtain ⟨x, hx, rfl⟩ := List.mem_map.mp hy
    exact (h x).mp (hp x hx)

mutual

/-- So does being small enough for the offsets. -/
theorem small_conv : ∀ {t t' : Ty} (r : Wire t t') (v : t.Val), Small t' (conv r v) ↔ Small t v
  | _, _, .same _, _ => Iff.rfl
  | _, _, .array r _, v =>
    and_congr (by rw [← enc_conv (.array r _) v])
      (each_map (fun x => (small_conv r x).symm) v.1)
  | _, _, .vector r _, v =>
    and_congr (by rw [← enc_conv (.vector r _) v])
      (each_map (fun x => (small_conv r x).symm) v)
  | _, _, .arrayVector r _, v =>
    and_congr (by rw [← enc_conv (.arrayVector r _) v])
      (each_map (fun x => (small_conv r x).symm) v.1)
  | _, _, .list r n n', v =>
    and_congr (by rw [← enc_conv (.list r n n') v])
      (each_map (fun x => (small_conv r x).symm) v)
  | _, _, .bitlist _ _, _ => Iff.rfl
  | _, _, .option r, v => by
    match v with
    | none => exact ⟨fun _ x hx => (nomatch hx), fun _ x hx => (nomatch hx)⟩
    | some x =>
      exact ⟨fun h y hy => by cases hy; exact (small_conv r x).mp (h _ rfl),
        fun h y hy => by cases hy; exact (small_conv r x).mpr (h _ rfl)⟩
  | _, _, .optionUnion r, v => by
    match v with
    | none => exact ⟨fun _ x hx => (nomatch hx), fun _ => trivial⟩
    | some x =>
      exact ⟨fun h y hy => by cases hy; exact (small_conv r x).mp h,
        fun h => (small_conv r x).mpr (h _ rfl)⟩
  | _, _, .unionOption r, v => by
    match v with
    | .inl _ => exact ⟨fun _ => trivial, fun _ x hx => nomatch hx⟩
    | .inr (.inl x) =>
      exact ⟨fun h => (small_conv r x).mp (h _ rfl),
        fun h y hy => by cases hy; exact (small_conv r x).mpr h⟩
    | .inr (.inr x) => exact Empty.elim x
  | _, _, .wrap r, v => (small_conv r v :)
  | _, _, .unwrap r, v => (small_conv r v :)
  | _, _, .container r, v =>
    and_congr (by rw [← enc_conv (.container r) v]) (small_convF r v)
  | _, _, .union r, v => small_convV r v

theorem small_convF : ∀ {fs fs' : Fields} (r : WireF fs fs') (v : fs.Val),
    SmallF fs' (convF r v) ↔ SmallF fs v
  | _, _, .nil, _ => Iff.rfl
  | _, _, .cons _ _ r rs, v => and_congr (small_conv r v.1) (small_convF rs v.2)

theorem small_convV : ∀ {vs vs' : Variants} (r : WireV vs vs') (v : vs.Val),
    SmallV vs' (convV r v) ↔ SmallV vs v
  | _, _, .nil, v => Empty.elim v
  | _, _, .unit _, .inl _ => Iff.rfl
  | _, _, .unit rs, .inr v => small_convV rs v
  | _, _, .data r _, .inl v => small_conv r v
  | _, _, .data _ rs, .inr v => small_convV rs v

end

mutual

/-- With bounds that are no smaller, values stay within them. -/
theorem valid_conv : ∀ {t t' : Ty} (r : Wire t t'), Raises r → ∀ v : t.Val, Valid t v →
    Valid t' (conv r v)
  | _, _, .same _, _, _, h => h
  | _, _, .array r _, hr, v, h => valid_map r hr v.1 h
  | _, _, .vector r _, hr, v, h => ⟨(List.length_map _).trans h.1, valid_map r hr v h.2⟩
  | _, _, .arrayVector r _, hr, v, h => ⟨(List.length_map _).trans v.2, valid_map r hr v.1 h⟩
  | _, _, .list r _ _, hr, v, h =>
    ⟨(List.length_map (as := v) (conv r)).le.trans (h.1.trans hr.1), valid_map r hr.2 v h.2⟩
  | _, _, .bitlist _ _, hr, _, h => ⟨h.1.trans hr, h.2⟩
  | _, _, .option r, hr, v, h => by
    match v with
    | none => exact fun x hx => nomatch hx
    | some x => exact fun y hy => by cases hy; exact valid_conv r hr x (h _ rfl)
  | _, _, .optionUnion r, hr, v, h => by
    match v with
    | none => exact trivial
    | some x => exact valid_conv r hr x (h _ rfl)
  | _, _, .unionOption r, hr, v, h => by
    match v with
    | .inl _ => exact fun x hx => nomatch hx
    | .inr (.inl x) => exact fun y hy => by cases hy; exact valid_conv r hr x h
    | .inr (.inr x) => exact Empty.elim x
  | _, _, .wrap r, hr, v, h => (valid_conv r hr v h :)
  | _, _, .unwrap r, hr, v, h => valid_conv r hr v h
  | _, _, .container r, hr, v, h => valid_convF r hr v h
  | _, _, .union r, hr, v, h => valid_convV r hr v h

theorem valid_map : ∀ {t t' : Ty} (r : Wire t t'), Raises r → ∀ vs : List t.Val,
    Each (Valid t) vs → Each (Valid t') (vs.map (conv r))
  | _, _, r, hr, vs, h => by
    intro y hy
    obtain ⟨x, hx, rfl⟩ := List.mem_map.mp hy
    exact valid_conv r hr x (h x hx)

theorem valid_convF : ∀ {fs fs' : Fields} (r : WireF fs fs'), RaisesF r → ∀ v : fs.Val,
    ValidF fs v → ValidF fs' (convF r v)
  | _, _, .nil, _, _, _ => trivial
  | _, _, .cons _ _ r rs, hr, v, h => ⟨valid_conv r hr.1 v.1 h.1, valid_convF rs hr.2 v.2 h.2⟩

theorem valid_convV : ∀ {vs vs' : Variants} (r : WireV vs vs'), RaisesV r → ∀ v : vs.Val,
    ValidV vs v → ValidV vs' (convV r v)
  | _, _, .nil, _, v, _ => Empty.elim v
  | _, _, .unit _, _, .inl _, _ => trivial
  | _, _, .unit rs, hr, .inr v, h => valid_convV rs hr v h
  | _, _, .data r _, hr, .inl v, h => valid_conv r hr.1 v h
  | _, _, .data _ rs, hr, .inr v, h => valid_convV rs hr.2 v h

end

theorem forall₂_map {α β : Type} {f : α → β} {A : Bytes → α → Prop} {B : Bytes → β → Prop} :
    ∀ (vs : List α) (ps : List Bytes), (∀ x ∈ vs, ∀ b, B b (f x) ↔ A b x) →
      (List.Forall₂ B ps (vs.map f) ↔ List.Forall₂ A ps vs)
  | [], ps, _ => by simp
  | v :: vs, [], _ => by simp
  | v :: vs, p :: ps, h => by
    rw [List.map_cons, List.forall₂_cons, List.forall₂_cons, h v (by simp) p,
      forall₂_map vs ps fun x hx => h x (by simp [hx])]

mutual

/-- The decoder takes the same inputs for a value in both types, if the value is within the bounds
of both. -/
theorem accepts_conv : ∀ {t t' : Ty} (r : Wire t t') (b : Bytes) (v : t.Val), Valid t v →
    Valid t' (conv r v) → (Accepts t' b (conv r v) ↔ Accepts t b v)
  | _, _, .same _, _, _, _, _ => Iff.rfl
  | _, _, .array r _, b, v, h, h' => laid_conv r b v.1 h h'
  | _, _, .vector r _, b, v, h, h' =>
    and_congr (iff_of_true h'.1 h.1) (laid_conv r b v h.2 h'.2)
  | _, _, .arrayVector r _, b, v, h, h' =>
    ⟨fun ha => (laid_conv r b v.1 h h'.2).mp ha.2,
      fun ha => ⟨h'.1, (laid_conv r b v.1 h h'.2).mpr ha⟩⟩
  | _, _, .list r _ _, b, v, h, h' =>
    and_congr (iff_of_true h'.1 h.1) (or_congr (laid_conv r b v h.2 h'.2)
      (and_congr (by rw [wire_isVar r]) (and_congr List.map_eq_nil_iff Iff.rfl)))
  | _, _, .bitlist _ _, _, _, h, h' => and_congr (iff_of_true h'.1 h.1) Iff.rfl
  | _, _, .option r, b, v, h, h' => by
    match v with
    | none => exact Iff.rfl
    | some x =>
      exact exists_congr fun b' => and_congr Iff.rfl (accepts_conv r b' x (h _ rfl) (h' _ rfl))
  | _, _, .optionUnion r, b, v, h, h' => by
    match v with
    | none => exact Iff.rfl
    | some x =>
      exact exists_congr fun b' => and_congr Iff.rfl (accepts_conv r b' x (h _ rfl) h')
  | _, _, .unionOption r, b, v, h, h' => by
    match v with
    | .inl _ => exact Iff.rfl
    | .inr (.inl x) =>
      exact exists_congr fun b' => and_congr Iff.rfl (accepts_conv r b' x h (h' _ rfl))
    | .inr (.inr x) => exact Empty.elim x
  | _, _, .wrap r, b, v, h, h' => (accepts_conv r b v h h' :)
  | _, _, .unwrap r, b, v, h, h' => accepts_conv r b v h h'
  | _, _, .container r, _, v, h, h' =>
    exists_congr fun ps => and_congr (accepts_convF r ps v h h') Iff.rfl
  | _, _, .union r, b, v, h, h' => accepts_convV r 0 b v h h'

theorem laid_conv : ∀ {t t' : Ty} (r : Wire t t') (b : Bytes) (vs : List t.Val),
    Each (Valid t) vs → Each (Valid t') (vs.map (conv r)) →
    (Laid (isVar t') (Accepts t') b (vs.map (conv r)) ↔ Laid (isVar t) (Accepts t) b vs)
  | _, _, r, b, vs, h, h' => by
    rw [wire_isVar r]
    exact exists_congr fun ps => and_congr (forall₂_map vs ps fun x hx b' =>
      accepts_conv r b' x (h x hx) (h' _ (List.mem_map_of_mem hx))) Iff.rfl

theorem accepts_convF : ∀ {fs fs' : Fields} (r : WireF fs fs') (ps : List Piece) (v : fs.Val),
    ValidF fs v → ValidF fs' (convF r v) → (AcceptsF fs' ps (convF r v) ↔ AcceptsF fs ps v)
  | _, _, .nil, _, _, _, _ => Iff.rfl
  | _, _, .cons _ _ r rs, ps, v, h, h' => by
    refine exists_congr fun p => exists_congr fun qs => ?_
    rw [wire_isVar r]
    exact and_congr Iff.rfl (and_congr (accepts_conv r p v.1 h.1 h'.1)
      (accepts_convF rs qs v.2 h.2 h'.2))

theorem accepts_convV : ∀ {vs vs' : Variants} (r : WireV vs vs') (i : Nat) (b : Bytes) (v : vs.Val),
    ValidV vs v → ValidV vs' (convV r v) → (AcceptsV vs' i b (convV r v) ↔ AcceptsV vs i b v)
  | _, _, .nil, _, _, v, _, _ => Empty.elim v
  | _, _, .unit _, _, _, .inl _, _, _ => Iff.rfl
  | _, _, .unit rs, i, b, .inr v, h, h' => accepts_convV rs (i + 1) b v h h'
  | _, _, .data r _, _, _, .inl v, h, h' =>
    exists_congr fun b' => and_congr Iff.rfl (accepts_conv r b' v h h')
  | _, _, .data _ rs, i, b, .inr v, h, h' => accepts_convV rs (i + 1) b v h h'

end

theorem wire_chunks {t t' : Ty} (r : Wire t t') (h : packs t = packs t') (n : Nat) :
    chunkCountBy packs t' n = chunkCountBy packs t n := by
  rw [chunkCountBy, chunkCountBy, h, wire_fixedLen r]

mutual

/-- If the depths of trees stay and nothing starts or ceases to be packed, so does the tree. -/
theorem tree_conv : ∀ {t t' : Ty} (r : Wire t t'), SameTrees r → ∀ v : t.Val,
    treeBy packs t' (conv r v) = treeBy packs t v
  | _, _, .same _, _, _ => rfl
  | _, _, .array r n, hs, v => by
    have := body_conv r hs.1 hs.2 v.1
    simp only [treeBy, conv, this, wire_chunks r hs.1]
  | _, _, .vector r n, hs, v => by
    have := body_conv r hs.1 hs.2 v
    simp only [treeBy, conv, this, wire_chunks r hs.1]
  | _, _, .arrayVector r n, hs, v => by
    have := body_conv r hs.1 hs.2 v.1
    simp only [treeBy, conv, this, wire_chunks r hs.1]
  | _, _, .list r n n', hs, v => by
    have := body_conv r hs.1 hs.2.2 v
    have hlen : (List.map (conv r) v).length = List.length v := List.length_map (as := v) _
    simp only [treeBy, conv, this, wire_chunks r hs.1, hs.2.1]
    exact congrArg (fun n => MTree.node _ (numLeaf n)) hlen
  | _, _, .bitlist n n', hs, _ => by
    simp only [treeBy, conv]
    rw [show depthFor ((n + 255) / 256) = _ from hs]
  | _, _, .option r, hs, v => by
    match v with
    | none => rfl
    | some x => exact congrArg (MTree.node · _) (tree_conv r hs x)
  | _, _, .optionUnion r, hs, v => by
    match v with
    | none => rfl
    | some x => exact congrArg (MTree.node · _) (tree_conv r hs x)
  | _, _, .unionOption r, hs, v => by
    match v with
    | .inl _ => rfl
    | .inr (.inl x) => exact congrArg (MTree.node · _) (tree_conv r hs x)
    | .inr (.inr x) => exact Empty.elim x
  | _, _, .wrap r, hs, v => (tree_conv r hs v :)
  | _, _, .unwrap r, hs, v => tree_conv r hs v
  | _, _, .container r, hs, v => by
    simp only [treeBy, conv]
    rw [trees_convF r hs v, wire_count r]
  | _, _, .union r, hs, v => tree_convV r hs 0 v

theorem body_conv : ∀ {t t' : Ty} (r : Wire t t'), packs t = packs t' → SameTrees r →
    ∀ vs : List t.Val,
    (if packs t' then leaves ((vs.map (conv r)).flatMap (enc t'))
      else (vs.map (conv r)).map (treeBy packs t')) =
    if packs t then leaves (vs.flatMap (enc t)) else vs.map (treeBy packs t)
  | _, _, r, hp, hs, vs => by
    rw [hp, List.map_map]
    congr 1
    · congr 1
      rw [List.flatMap_map]
      exact List.flatMap_congr fun x _ => enc_conv r x
    · exact List.map_congr_left fun x _ => tree_conv r hs x

theorem trees_convF : ∀ {fs fs' : Fields} (r : WireF fs fs'), SameTreesF r → ∀ v : fs.Val,
    treesByF packs fs' (convF r v) = treesByF packs fs v
  | _, _, .nil, _, _ => rfl
  | _, _, .cons _ _ r rs, hs, v => by
    simp only [treesByF, convF]
    rw [tree_conv r hs.1, trees_convF rs hs.2]

theorem tree_convV : ∀ {vs vs' : Variants} (r : WireV vs vs'), SameTreesV r →
    ∀ (i : Nat) (v : vs.Val), treeByV packs vs' i (convV r v) = treeByV packs vs i v
  | _, _, .nil, _, _, v => Empty.elim v
  | _, _, .unit _, _, _, .inl _ => rfl
  | _, _, .unit rs, hs, i, .inr v => tree_convV rs hs (i + 1) v
  | _, _, .data r _, hs, _, .inl v => congrArg (MTree.node · _) (tree_conv r hs.1 v)
  | _, _, .data _ rs, hs, i, .inr v => tree_convV rs hs.2 (i + 1) v

end

theorem held_conv {t t' : Ty} (r : Wire t t') (hp : packs t = packs t') {n : Nat}
    (h : held t n) : held t' n :=
  ⟨h.1, fun hp' => by rw [wire_fixedLen r]; exact h.2 (hp.trans hp')⟩

mutual

theorem inMemory_conv : ∀ {t t' : Ty} (r : Wire t t'), SameTrees r → ∀ v : t.Val, InMemory t v →
    InMemory t' (conv r v)
  | _, _, .same _, _, _, h => h
  | _, _, .array r _, hs, v, h =>
    ⟨held_conv r hs.1 (by rw [conv, List.length_map]; exact h.1), inMemory_map r hs.2 v.1 h.2⟩
  | _, _, .vector r _, hs, v, h =>
    ⟨held_conv r hs.1 (by
      rw [show (conv (.vector r _) v).length = List.length v from List.length_map (as := v) _]
      exact h.1), inMemory_map r hs.2 v h.2⟩
  | _, _, .arrayVector r _, hs, v, h =>
    ⟨held_conv r hs.1 (by rw [conv, List.length_map]; exact h.1), inMemory_map r hs.2 v.1 h.2⟩
  | _, _, .list r n n', hs, v, h =>
    ⟨held_conv r hs.1 (by
      rw [show (conv (.list r n n') v).length = List.length v from List.length_map (as := v) _]
      exact h.1), inMemory_map r hs.2.2 v h.2⟩
  | _, _, .bitlist _ _, _, _, h => h
  | _, _, .option r, hs, v, h => by
    match v with
    | none => exact fun x hx => nomatch hx
    | some x => exact fun y hy => by cases hy; exact inMemory_conv r hs x (h _ rfl)
  | _, _, .optionUnion r, hs, v, h => by
    match v with
    | none => exact trivial
    | some x => exact inMemory_conv r hs x (h _ rfl)
  | _, _, .unionOption r, hs, v, h => by
    match v with
    | .inl _ => exact fun x hx => nomatch hx
    | .inr (.inl x) => exact fun y hy => by cases hy; exact inMemory_conv r hs x h
    | .inr (.inr x) => exact Empty.elim x
  | _, _, .wrap r, hs, v, h => (inMemory_conv r hs v h :)
  | _, _, .unwrap r, hs, v, h => inMemory_conv r hs v h
  | _, _, .container r, hs, v, h => inMemory_convF r hs v h
  | _, _, .union r, hs, v, h => inMemory_convV r hs v h

theorem inMemory_map : ∀ {t t' : Ty} (r : Wire t t'), SameTrees r → ∀ vs : List t.Val,
    Each (InMemory t) vs → Each (InMemory t') (vs.map (conv r))
  | _, _, r, hs, vs, h => by
    intro y hy
    obtain ⟨x, hx, rfl⟩ := List.mem_map.mp hy
    exact inMemory_conv r hs x (h x hx)

theorem inMemory_convF : ∀ {fs fs' : Fields} (r : WireF fs fs'), SameTreesF r → ∀ v : fs.Val,
    InMemoryF fs v → InMemoryF fs' (convF r v)
  | _, _, .nil, _, _, _ => trivial
  | _, _, .cons _ _ r rs, hs, v, h =>
    ⟨inMemory_conv r hs.1 v.1 h.1, inMemory_convF rs hs.2 v.2 h.2⟩

theorem inMemory_convV : ∀ {vs vs' : Variants} (r : WireV vs vs'), SameTreesV r → ∀ v : vs.Val,
    InMemoryV vs v → InMemoryV vs' (convV r v)
  | _, _, .nil, _, v, _ => Empty.elim v
  | _, _, .unit _, _, .inl _, _ => trivial
  | _, _, .unit rs, hs, .inr v, h => inMemory_convV rs hs v h
  | _, _, .data r _, hs, .inl v, h => inMemory_conv r hs.1 v h
  | _, _, .data _ rs, hs, .inr v, h => inMemory_convV rs hs.2 v h

end

end Ssz
