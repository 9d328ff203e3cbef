import Verif.Proofs.Accept

/-!
# A value that holds an empty list of variable-size elements has a second accepted encoding
-/

namespace Ssz

open Spec

theorem map_self_mem {α : Type} {f : α → α} : ∀ {xs : List α}, xs.map f = xs → ∀ x ∈ xs, f x = x
  | [], _, _, hx => nomatch hx
  | y :: ys, h, x, hx => by
    simp only [List.map_cons, List.cons.injEq] at h
    rcases List.mem_cons.mp hx with rfl | hx
    · exact h.1
    · exact map_self_mem h.2 x hx

theorem laid_enc {t : Ty} : ∀ {vs : List t.Val}, (∀ x ∈ vs, Accepts t (enc t x) x) →
    List.Forall₂ (Accepts t) (vs.map (enc t)) vs
  | [], _ => .nil
  | _ :: _, h => .cons (h _ (by simp)) (laid_enc fun x hx => h x (by simp [hx]))

theorem laid_assemble {t : Ty} {vs : List t.Val} (h : ∀ x ∈ vs, Accepts t (enc t x) x)
    (hs : (assemble (vs.map fun x => (isVar t, enc t x))).length < maxLen) :
    Laid (isVar t) (Accepts t) (assemble (vs.map fun x => (isVar t, enc t x))) vs :=
  ⟨vs.map (enc t), laid_enc h, by rw [List.map_map]; exact addressed_of_length hs,
    by rw [List.map_map]; rfl⟩

mutual

theorem accepts_enc : ∀ (t : Ty) (v : t.Val), Valid t v → norm t v = v → Small t v →
    Accepts t (enc t v) v
  | .uint _, _, _, _, _ => rfl
  | .u256, _, _, _, _ => rfl
  | .bool, _, _, _, _ => rfl
  | .node, _, _, _, _ => rfl
  | .array t n, v, h, hn, hs => by
    have hn : v.1.map (norm t) = v.1 := congrArg Subtype.val hn
    exact laid_assemble (fun x hx => accepts_enc t x (h x hx) (map_self_mem hn x hx) (hs.2 x hx)) hs.1
  | .vector t n, v, h, hn, hs =>
    ⟨h.1, laid_assemble (fun x hx =>
      accepts_enc t x (h.2 x hx) (map_self_mem (f := norm t) hn x hx) (hs.2 x hx)) hs.1⟩
  | .list t n, v, h, hn, hs =>
    ⟨h.1, .inl (laid_assemble (fun x hx =>
      accepts_enc t x (h.2 x hx) (map_self_mem (f := norm t) hn x hx) (hs.2 x hx)) hs.1)⟩
  | .bitvector n, v, h, hn, _ => by
    have h : v.live.length = n := h
    have hd : v.dead = padBits v.live.length := (congrArg Bits.dead hn).symm
    exact ⟨h, by rw [hd, h], rfl⟩
  | .bitlist n, v, h, hn, _ => ⟨h.1, h.2, rfl⟩
  | .option t, none, h, hn, _ => rfl
  | .option t, some x, h, hn, hs =>
    ⟨enc t x, rfl, accepts_enc t x (h x rfl) (Option.some.inj hn) (hs x rfl)⟩
  | .newtype t, v, h, hn, hs => accepts_enc t v h hn hs
  | .container fs, v, h, hn, hs =>
    ⟨piecesF fs v, acceptsF_enc fs v h hn hs.2, addressed_of_length hs.1, rfl⟩
  | .union vs, v, h, hn, hs => acceptsV_enc vs 0 v h hn hs

theorem acceptsF_enc : ∀ (fs : Fields) (v : fs.Val), ValidF fs v → normF fs v = v → SmallF fs v →
    AcceptsF fs (piecesF fs v) v
  | .nil, _, _, _, _ => rfl
  | .cons _ t rest, v, h, hn, hs => ⟨enc t v.1, piecesF rest v.2, rfl,
      accepts_enc t v.1 h.1 (congrArg Prod.fst hn) hs.1,
      acceptsF_enc rest v.2 h.2 (congrArg Prod.snd hn) hs.2⟩

theorem acceptsV_enc : ∀ (vs : Variants) (i : Nat) (v : vs.Val), ValidV vs v → normV vs v = v →
    SmallV vs v → AcceptsV vs i (encV vs i v) v
  | .nil, _, v, _, _, _ => v.elim
  | .unit _, _, .inl _, _, _, _ => rfl
  | .unit vs, i, .inr v, h, hn, hs => acceptsV_enc vs (i + 1) v h (Sum.inr.inj hn) hs
  | .data t _, _, .inl v, h, hn, hs => ⟨enc t v, rfl, accepts_enc t v h (Sum.inl.inj hn) hs⟩
  | .data _ vs, i, .inr v, h, hn, hs => acceptsV_enc vs (i + 1) v h (Sum.inr.inj hn) hs

end

theorem laid_loose {t : Ty} (hv : isVar t = true) : ∀ (vs : List t.Val),
    (∀ x ∈ vs, Accepts t (enc t x) x) →
    (∃ x ∈ vs, ∃ b, Accepts t b x ∧ b.length = (enc t x).length + 4) →
    ∃ ps, List.Forall₂ (Accepts t) ps vs ∧ ps.length = vs.length ∧
      ps.flatten.length = (vs.map (enc t)).flatten.length + 4
  | [], _, h => by obtain ⟨_, h, _⟩ := h; cases h
  | y :: ys, ha, h => by
    obtain ⟨x, hx, b, h1, h2⟩ := h
    rcases List.mem_cons.mp hx with rfl | hx
    · refine ⟨b :: ys.map (enc t), .cons h1 (laid_enc fun x hx => ha x (by simp [hx])), by simp, ?_⟩
      simp only [List.map_cons, List.flatten_cons, List.length_append, h2]
      omega
    · obtain ⟨ps, p1, p2, p3⟩ := laid_loose hv ys (fun x hx => ha x (by simp [hx]))
        ⟨x, hx, b, h1, h2⟩
      refine ⟨enc t y :: ps, .cons (ha y (by simp)) p1, by simp [p2], ?_⟩
      simp only [List.map_cons, List.flatten_cons, List.length_append, p3]
      omega

theorem laid_loose_assemble {t : Ty} (hv : isVar t = true) {vs : List t.Val}
    (ha : ∀ x ∈ vs, Accepts t (enc t x) x)
    (h : ∃ x ∈ vs, ∃ b, Accepts t b x ∧ b.length = (enc t x).length + 4)
    (hs : (assemble (vs.map fun x => (isVar t, enc t x))).length + 4 < maxLen) :
    ∃ b, Laid (isVar t) (Accepts t) b vs ∧
      b.length = (assemble (vs.map fun x => (isVar t, enc t x))).length + 4 := by
  obtain ⟨ps, h1, h2, h3⟩ := laid_loose hv vs ha h
  have hlen : (assemble (ps.map fun p => (isVar t, p))).length =
      (assemble (vs.map fun x => (isVar t, enc t x))).length + 4 := by
    rw [show (vs.map fun x => (isVar t, enc t x)) = varPieces (vs.map (enc t)) by
      simp [varPieces, hv], hv, assemble_length, assemble_length]
    show headLen (varPieces ps) + (tails (varPieces ps)).length = _
    rw [headLen_varPieces, headLen_varPieces, tails_varPieces, tails_varPieces, h3, List.length_map,
      h2]
    omega
  exact ⟨_, ⟨ps, h1, addressed_of_length (by omega), rfl⟩, hlen⟩

theorem isVar_of_loose {t : Ty} {v : t.Val} (h : ¬ NoEmptyVarList t v) : isVar t = true := by
  cases hv : isVar t with
  | true => rfl
  | false => exact absurd (noEmptyVarList_of_noVarList t v (fixed_facts t hv).1) h

theorem each_loose {α : Type} {P : α → Prop} {xs : List α} (h : ¬ Each P xs) : ∃ x ∈ xs, ¬ P x := by
  by_contra hc
  push Not at hc
  exact h hc

theorem element_length {t : Ty} {vs : List t.Val}
    (hs : (assemble (vs.map fun x => (isVar t, enc t x))).length + 4 < maxLen) :
    ∀ x ∈ vs, (enc t x).length + 4 < maxLen := fun x hx => by
  have := piece_length_le (ps := vs.map fun x => (isVar t, enc t x)) (p := (isVar t, enc t x))
    (List.mem_map_of_mem hx)
  simp only at this
  omega

mutual

theorem loose : ∀ (t : Ty) (v : t.Val), Valid t v → norm t v = v →
    (enc t v).length + 4 < maxLen → ¬ NoEmptyVarList t v →
    ∃ b, Accepts t b v ∧ b.length = (enc t v).length + 4
  | .uint _, _, _, _, _, h => absurd trivial h
  | .u256, _, _, _, _, h => absurd trivial h
  | .bool, _, _, _, _, h => absurd trivial h
  | .node, _, _, _, _, h => absurd trivial h
  | .array t n, v, hv, hn, hs, h => by
    have hn : v.1.map (norm t) = v.1 := congrArg Subtype.val hn
    obtain ⟨x, hx, hb⟩ := each_loose h
    have hsx := fun x hx => element_length (t := t) (vs := v.1) hs x hx
    exact laid_loose_assemble (isVar_of_loose hb)
      (fun x hx => accepts_enc t x (hv x hx) (map_self_mem hn x hx)
        (small_of_length t x (by have := hsx x hx; omega)))
      ⟨x, hx, loose t x (hv x hx) (map_self_mem hn x hx) (hsx x hx) hb⟩ hs
  | .vector t n, v, hv, hn, hs, h => by
    obtain ⟨x, hx, hb⟩ := each_loose h
    have hsx := fun x hx => element_length (t := t) (vs := v) hs x hx
    obtain ⟨b, h1, h2⟩ := laid_loose_assemble (isVar_of_loose hb)
      (fun x hx => accepts_enc t x (hv.2 x hx) (map_self_mem (f := norm t) hn x hx)
        (small_of_length t x (by have := hsx x hx; omega)))
      ⟨x, hx, loose t x (hv.2 x hx) (map_self_mem (f := norm t) hn x hx) (hsx x hx) hb⟩ hs
    exact ⟨b, ⟨hv.1, h1⟩, h2⟩
  | .list t n, v, hv, hn, hs, h => by
    by_cases he : isVar t = true ∧ v = ([] : List t.Val)
    · obtain ⟨h1, rfl⟩ := he
      exact ⟨[0, 0, 0, 0], ⟨hv.1, .inr ⟨h1, rfl, [], rfl⟩⟩, rfl⟩
    · obtain ⟨x, hx, hb⟩ := each_loose fun h2 => h ⟨fun h3 h4 => he ⟨h3, h4⟩, h2⟩
      have hsx := fun x hx => element_length (t := t) (vs := v) hs x hx
      obtain ⟨b, h1, h2⟩ := laid_loose_assemble (isVar_of_loose hb)
        (fun x hx => accepts_enc t x (hv.2 x hx) (map_self_mem (f := norm t) hn x hx)
          (small_of_length t x (by have := hsx x hx; omega)))
        ⟨x, hx, loose t x (hv.2 x hx) (map_self_mem (f := norm t) hn x hx) (hsx x hx) hb⟩ hs
      exact ⟨b, ⟨hv.1, .inl h1⟩, h2⟩
  | .bitvector _, _, _, _, _, h => absurd trivial h
  | .bitlist _, _, _, _, _, h => absurd trivial h
  | .option t, none, _, _, _, h => absurd (fun x (hx : none = some x) => nomatch hx) h
  | .option t, some x, hv, hn, hs, h => by
    obtain ⟨b, h1, h2⟩ := loose t x (hv x rfl) (Option.some.inj hn) (Nat.lt_of_succ_lt hs) fun h2 =>
      h fun y hy => by cases hy; exact h2
    exact ⟨1 :: b, ⟨b, rfl, h1⟩, congrArg Nat.succ h2⟩
  | .newtype t, v, hv, hn, hs, h => loose t v hv hn hs h
  | .container fs, v, hv, hn, hs, h => by
    have hs : (assemble (piecesF fs v)).length + 4 < maxLen := hs
    obtain ⟨ps, h1, h2, h3⟩ := looseF fs v hv hn
      (fun p hp => by have := piece_length_le hp; omega) h
    have hlen : (assemble ps).length = (assemble (piecesF fs v)).length + 4 := by
      rw [assemble_length, assemble_length, h2, h3]
      omega
    exact ⟨_, ⟨ps, h1, addressed_of_length (by omega), rfl⟩, hlen⟩
  | .union vs, v, hv, hn, hs, h => looseV vs 0 v hv hn hs h

theorem looseF : ∀ (fs : Fields) (v : fs.Val), ValidF fs v → normF fs v = v →
    (∀ p ∈ piecesF fs v, p.2.length + 4 < maxLen) →
    ¬ NoEmptyVarListF fs v → ∃ ps, AcceptsF fs ps v ∧ headLen ps = headLen (piecesF fs v) ∧
      (tails ps).length = (tails (piecesF fs v)).length + 4
  | .nil, _, _, _, _, h => absurd trivial h
  | .cons _ t rest, v, hv, hn, hs, h => by
    have hs1 : (enc t v.1).length + 4 < maxLen := hs (isVar t, enc t v.1) (by simp [piecesF])
    have hs2 : ∀ p ∈ piecesF rest v.2, p.2.length + 4 < maxLen := fun p hp =>
      hs p (by simp [piecesF, hp])
    by_cases h1 : NoEmptyVarList t v.1
    · obtain ⟨ps, p1, p2, p3⟩ := looseF rest v.2 hv.2 (congrArg Prod.snd hn) hs2
        fun h2 => h ⟨h1, h2⟩
      refine ⟨(isVar t, enc t v.1) :: ps, ⟨_, ps, rfl, accepts_enc t v.1 hv.1 (congrArg Prod.fst hn)
        (small_of_length t v.1 (by omega)), p1⟩, ?_, ?_⟩
      · simp only [piecesF, headLen_cons, p2]
      · cases hvt : isVar t with
        | true =>
          simp only [piecesF, hvt, tails_cons_true, List.length_append, p3]
          omega
        | false => simp only [piecesF, hvt, tails_cons_false, p3]
    · obtain ⟨b, b1, b2⟩ := loose t v.1 hv.1 (congrArg Prod.fst hn) hs1 h1
      have hvt := isVar_of_loose h1
      refine ⟨(isVar t, b) :: piecesF rest v.2,
        ⟨_, _, rfl, b1, acceptsF_enc rest v.2 hv.2 (congrArg Prod.snd hn)
          (smallF_of_length rest v.2 fun p hp => by have := hs2 p hp; omega)⟩, ?_, ?_⟩
      · simp only [piecesF, headLen_cons, headSize, hvt, if_true]
      · simp only [piecesF, hvt, tails_cons_true, List.length_append, b2]
        omega

theorem looseV : ∀ (vs : Variants) (i : Nat) (v : vs.Val), ValidV vs v → normV vs v = v →
    (encV vs i v).length + 4 < maxLen →
    ¬ NoEmptyVarListV vs v → ∃ b, AcceptsV vs i b v ∧ b.length = (encV vs i v).length + 4
  | .nil, _, v, _, _, _, _ => v.elim
  | .unit _, _, .inl _, _, _, _, h => absurd trivial h
  | .unit vs, i, .inr v, hv, hn, hs, h => looseV vs (i + 1) v hv (Sum.inr.inj hn) hs h
  | .data t _, i, .inl v, hv, hn, hs, h => by
    obtain ⟨b, h1, h2⟩ := loose t v hv (Sum.inl.inj hn) (Nat.lt_of_succ_lt hs) h
    exact ⟨BitVec.ofNat 8 i :: b, ⟨b, rfl, h1⟩, congrArg Nat.succ h2⟩
  | .data _ vs, i, .inr v, hv, hn, hs, h => looseV vs (i + 1) v hv (Sum.inr.inj hn) hs h

end

end Ssz
