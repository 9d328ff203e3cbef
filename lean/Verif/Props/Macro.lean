import Verif.Proofs.Basics
import Verif.Spec.Encoding
import Verif.Spec.Macro

/-!
# Property C22: the derive macro accepts exactly the legal shapes

An item is accepted if the macro returns; a panic of the macro is a compile error.
-/

namespace Ssz

open Spec Macro

/-! ## Attributes -/

theorem isHelper_iff (a : Attribute) : isHelper a ↔ a.path.head? = some "ssz" := by
  unfold isHelper
  cases a.path with
  | nil => simp
  | cons x xs =>
    simp only [List.head?_cons, Option.some.injEq]
    constructor
    · rintro ⟨rest, h⟩; exact (List.cons.inj h).1
    · rintro rfl; exact ⟨xs, rfl⟩

theorem mem_filterSszAttrs {a : Attribute} {as : List Attribute} :
    a ∈ filterSszAttrs as ↔ a ∈ as ∧ isHelper a := by
  rw [isHelper_iff, filterSszAttrs, List.mem_filter]
  cases a.path.head? <;> simp

theorem filterSszAttrs_head (as : List Attribute) :
    (filterSszAttrs as).head? = none ↔ ∀ a ∈ as, ¬ isHelper a := by
  rw [List.head?_eq_none_iff, List.eq_nil_iff_forall_not_mem]
  simp only [mem_filterSszAttrs, not_and]

theorem validateNoAttrs_eq (fs : List Field) : validateNoAttrs fs = .ok () ↔ plainFields fs := by
  have key : (fs.flatMap fun f => filterSszAttrs f.attrs).head? = none ↔ plainFields fs := by
    rw [List.head?_eq_none_iff, List.eq_nil_iff_forall_not_mem]
    simp only [List.mem_flatMap, mem_filterSszAttrs, plainFields, not_exists, not_and]
    constructor
    · intro h f hf a ha; exact h a f hf ha
    · intro h a f hf ha; exact h f hf a ha
  unfold validateNoAttrs
  cases h : (fs.flatMap fun f => filterSszAttrs f.attrs).head? with
  | none => exact ⟨fun _ => key.1 h, fun _ => rfl⟩
  | some a => exact ⟨fun h' => (nomatch h'), fun h' => (nomatch (h.symm.trans (key.2 h')))⟩

theorem parseNested_eq (m : NestedMeta) (x : HelperAttr) :
    parseNested m = .ok x ↔ m = .path false [("transparent", false)] := by
  cases x
  cases m with
  | path colon segments =>
    cases colon with
    | true => simp [parseNested]
    | false =>
      match segments with
      | [] => simp [parseNested]
      | [(name, hasArgs)] =>
        cases hasArgs
        · by_cases hn : name = "transparent"
          · subst hn; exact ⟨fun _ => rfl, fun _ => rfl⟩
          · simp [parseNested, index, parseHelperAttr, hn, Bind.bind, Res.bind]
        · simp [parseNested, index, Bind.bind, Res.bind]
      | _ :: _ :: _ => simp [parseNested]
  | otherMeta => simp [parseNested]
  | lit => simp [parseNested]

theorem parseNested_list (ms : List NestedMeta) (xs : List HelperAttr) :
    Res.mapList parseNested ms = .ok xs ↔
      ms = List.replicate xs.length (.path false [("transparent", false)]) := by
  induction ms generalizing xs with
  | nil =>
    cases xs with
    | nil => simp [Res.mapList]
    | cons => simp [Res.mapList, List.replicate_succ]
  | cons m ms ih =>
    cases xs with
    | nil =>
      simp only [Res.mapList, List.length_nil, List.replicate_zero, reduceCtorEq, iff_false]
      split
      · split <;> simp
      · simp
      · simp
    | cons x xs =>
      rw [List.length_cons, List.replicate_succ, List.cons.injEq, ← parseNested_eq m x, ← ih xs]
      simp only [Res.mapList]
      split
      · next b hb =>
        split
        · next bs hbs => simp [hb, hbs]
        · next e _ => exact nomatch e
        · next h => simp [h]
      · next e _ => exact nomatch e
      · next h => simp [h]

theorem replicate_append_iff {α : Type} (a : α) (xs ys : List α) (n : Nat) :
    xs ++ ys = List.replicate n a ↔
      ∃ i j, i + j = n ∧ xs = List.replicate i a ∧ ys = List.replicate j a := by
  constructor
  · intro h
    have hx : ∀ b ∈ xs, b = a := fun b hb =>
      List.eq_of_mem_replicate (h ▸ List.mem_append_left ys hb)
    have hy : ∀ b ∈ ys, b = a := fun b hb =>
      List.eq_of_mem_replicate (h ▸ List.mem_append_right xs hb)
    refine ⟨xs.length, ys.length, ?_, List.eq_replicate_iff.2 ⟨rfl, hx⟩,
      List.eq_replicate_iff.2 ⟨rfl, hy⟩⟩
    have := congrArg List.length h
    simpa using this
  · rintro ⟨i, j, rfl, rfl, rfl⟩
    rw [List.replicate_append_replicate]

theorem transparent_replicate (xs : List HelperAttr) :
    xs = List.replicate xs.length .transparent :=
  List.eq_replicate_iff.2 ⟨rfl, fun b _ => by cases b; rfl⟩

theorem extract_eq (item : Item) (n : Nat) :
    extractHelperAttrs item = .ok (List.replicate n .transparent) ↔
      (∀ a ∈ item.attrs, isHelper a → ∃ nested, a.content = .list nested) ∧
      item.attrs.flatMap helperArgs = List.replicate n (.path false [("transparent", false)]) := by
  obtain ⟨as, data⟩ := item
  show ((Res.mapList parseAttribute (filterSszAttrs as)) >>= fun attrs => Res.ok attrs.flatten) =
    Res.ok (List.replicate n HelperAttr.transparent) ↔ _
  induction as generalizing n with
  | nil =>
    cases n with
    | zero => exact ⟨fun _ => ⟨fun a ha => absurd ha List.not_mem_nil, rfl⟩, fun _ => rfl⟩
    | succ n => exact ⟨fun h => (nomatch h), fun h => (nomatch h.2)⟩
  | cons a as ih =>
    by_cases ha : isHelper a
    · have hp := (isHelper_iff a).1 ha
      have hf : filterSszAttrs (a :: as) = a :: filterSszAttrs as := by
        unfold filterSszAttrs; rw [List.filter_cons]; simp [hp]
      rw [hf]
      simp only [List.mem_cons, forall_eq_or_imp, ha, true_imp_iff, List.flatMap_cons,
        helperArgs, hp, if_true]
      cases hc : a.content with
      | other => simp [Res.mapList, parseAttribute, hc, Bind.bind, Res.bind]
      | invalid => simp [Res.mapList, parseAttribute, hc, Bind.bind, Res.bind]
      | list nested =>
        simp only [replicate_append_iff]
        have ih' := fun m => ih m
        constructor
        · intro h
          simp only [Res.mapList, parseAttribute, hc] at h
          cases h1 : Res.mapList parseNested nested with
          | panic => rw [h1] at h; exact nomatch h
          | err e => exact nomatch e
          | ok xs =>
            rw [h1] at h
            cases h2 : Res.mapList parseAttribute (filterSszAttrs as) with
            | panic => rw [h2] at h; exact nomatch h
            | err e => exact nomatch e
            | ok ys =>
              rw [h2] at h
              have h : xs ++ ys.flatten = List.replicate n .transparent := by
                have := Res.ok.inj h
                simpa using this
              have h3 := (ih' ys.flatten.length).1 (by
                rw [h2]; exact congrArg Res.ok (transparent_replicate _))
              refine ⟨⟨⟨nested, rfl⟩, h3.1⟩, xs.length, ys.flatten.length, ?_,
                (parseNested_list _ _).1 h1, h3.2⟩
              have := congrArg List.length h
              simpa using this
        · rintro ⟨⟨_, h1⟩, i, j, rfl, h2, h3⟩
          have h4 := (parseNested_list nested (List.replicate i .transparent)).2 (by simpa using h2)
          have h5 := (ih' j).2 ⟨h1, h3⟩
          simp only [Res.mapList, parseAttribute, hc, h4]
          cases h6 : Res.mapList parseAttribute (filterSszAttrs as) with
          | panic => rw [h6] at h5; exact nomatch h5
          | err e => exact nomatch e
          | ok ys =>
            rw [h6] at h5
            have h5 : ys.flatten = _ := Res.ok.inj h5
            show Res.ok (List.replicate i HelperAttr.transparent :: ys).flatten = _
            rw [List.flatten_cons, h5, List.replicate_append_replicate]
    · have hp : ¬ a.path.head? = some "ssz" := fun h => ha ((isHelper_iff a).2 h)
      have hf : filterSszAttrs (a :: as) = filterSszAttrs as := by
        unfold filterSszAttrs; rw [List.filter_cons]
        cases h : a.path.head? with
        | none => simp
        | some s =>
          have : s ≠ "ssz" := fun e => hp (e ▸ h)
          simp [this]
      rw [hf, ih n]
      have hargs : helperArgs a = [] := by simp [helperArgs, hp]
      simp only [List.mem_cons, forall_eq_or_imp, ha, false_imp_iff, true_and, List.flatMap_cons,
        hargs, List.nil_append]

/-! ## Shapes -/

/-- What the macro wants of the attributes of a variant. -/
def plainVariant (v : Variant) : Prop :=
  (∀ a ∈ v.attrs, ¬ isHelper a) ∧ plainFields v.fields.fields

theorem validateVariants_step (tr : Bool) (count : Nat) (v : Variant) (vs : List Variant)
    (i : Nat) (nf an : Bool) :
    validateVariants tr count (v :: vs) i nf an = .ok () ↔
      plainVariant v ∧
      ((payloadVariant v ∧
          validateVariants tr count vs (i + 1) (if i = 0 then true else nf) an = .ok ()) ∨
        (v.fields = .unit ∧ tr = false ∧ nf = false ∧ an = false ∧ v.ident = "None" ∧ i = 0 ∧
          2 ≤ count ∧ validateVariants tr count vs (i + 1) nf true = .ok ())) := by
  obtain ⟨ident, attrs, fields⟩ := v
  simp only [validateVariants, plainVariant, payloadVariant, ← filterSszAttrs_head]
  cases h : (filterSszAttrs attrs).head? with
  | some a => simp
  | none =>
    cases hv : validateNoAttrs fields.fields with
    | err e => exact nomatch e
    | panic =>
      have hn : ¬ plainFields fields.fields := fun hp => by
        rw [(validateNoAttrs_eq _).2 hp] at hv; exact nomatch hv
      simp [hn, Bind.bind, Res.bind]
    | ok u =>
      have hp := (validateNoAttrs_eq fields.fields).1 hv
      simp only [hp, Bind.bind, Res.bind, true_and]
      cases fields with
      | named fs => simp
      | unnamed fs =>
        have hp' : validateNoAttrs fs = .ok () := hv
        match fs, hp' with
        | [], _ => simp
        | [f], hp' => simp [hp']
        | _ :: _ :: _, _ => simp
      | unit =>
        cases tr
        · cases nf
          · cases an
            · by_cases hn : ident = "None"
              · by_cases hi : i = 0
                · by_cases hc : count < 2
                  · simp [isValidNoneIdentifier, hn, hi, hc, Nat.not_le.2 hc]
                  · simp [isValidNoneIdentifier, hn, hi, hc, Nat.not_lt.1 hc]
                · simp [isValidNoneIdentifier, hn, hi]
              · simp [isValidNoneIdentifier, hn]
            · simp
          · simp
        · simp

theorem validateVariants_rest (tr : Bool) (count : Nat) : ∀ (vs : List Variant) (i : Nat)
    (nf an : Bool), 0 < i →
    (validateVariants tr count vs i nf an = .ok () ↔
      ∀ v ∈ vs, payloadVariant v ∧ plainVariant v)
  | [], _, _, _, _ => ⟨fun _ _ hv => absurd hv List.not_mem_nil, fun _ => rfl⟩
  | v :: vs, i, nf, an, hi => by
    rw [validateVariants_step, validateVariants_rest tr count vs (i + 1) _ an (Nat.succ_pos i)]
    simp only [List.mem_cons, forall_eq_or_imp]
    constructor
    · rintro ⟨h1, ⟨h2, h3⟩ | h2⟩
      · exact ⟨⟨h2, h1⟩, h3⟩
      · exact absurd h2.2.2.2.2.2.1 (by omega)
    · rintro ⟨⟨h1, h2⟩, h3⟩
      exact ⟨h2, .inl ⟨h1, h3⟩⟩

theorem validateVariants_eq (tr : Bool) (vs : List Variant) (hne : vs ≠ []) :
    validateVariants tr vs.length vs 0 false false = .ok () ↔
      legalVariants tr vs ∧ ∀ v ∈ vs, plainVariant v := by
  match vs, hne with
  | v :: vs, _ =>
    rw [validateVariants_step, validateVariants_rest tr _ vs 1 _ _ Nat.one_pos,
      validateVariants_rest tr _ vs 1 _ _ Nat.one_pos]
    unfold legalVariants
    simp only [List.mem_cons, forall_eq_or_imp, List.length_cons]
    constructor
    · rintro ⟨h1, ⟨h2, h3⟩ | ⟨h2, h3, _, _, h4, _, h5, h6⟩⟩
      · exact ⟨.inl ⟨h2, fun w hw => (h3 w hw).1⟩, h1, fun w hw => (h3 w hw).2⟩
      · refine ⟨.inr ⟨v, vs, rfl, h4, h2, ?_, h3, fun w hw => (h6 w hw).1⟩, h1,
          fun w hw => (h6 w hw).2⟩
        rintro rfl
        simp at h5
    · rintro ⟨⟨h1, h2⟩ | ⟨v', vs', he, h1, h2, h3, h4, h5⟩, h6, h7⟩
      · exact ⟨h6, .inl ⟨h1, fun w hw => ⟨h2 w hw, h7 w hw⟩⟩⟩
      · obtain ⟨rfl, rfl⟩ := List.cons.inj he
        refine ⟨h6, .inr ⟨h2, h4, trivial, trivial, h1, trivial, ?_, fun w hw => ⟨h5 w hw, h7 w hw⟩⟩⟩
        have := List.length_pos_iff.2 h3
        omega

theorem validate_eq (data : Data) (n : Nat) :
    validateDeriveInput data (List.replicate n .transparent) = .ok () ↔
      n ≤ 1 ∧ legalShape (decide (0 < n)) data := by
  have shape : ∀ tr, (match data with
      | .struct (.named fields) => if fields.isEmpty then .panic else validateNoAttrs fields
      | .struct (.unnamed fields) => if fields.length = 1 then validateNoAttrs fields else .panic
      | .struct .unit => .panic
      | .enum variants =>
        if variants.isEmpty then .panic
        else if variants.length > 127 then .panic
        else validateVariants tr variants.length variants 0 false false
      | .union => .panic : Calc Unit) = .ok () ↔
      legalShape (match data with | .enum _ => tr | _ => false) data := by
    intro tr
    cases data with
    | struct fs =>
      cases fs with
      | named fs =>
        cases fs with
        | nil => simp [legalShape]
        | cons f fs => simp [legalShape, validateNoAttrs_eq]
      | unnamed fs =>
        by_cases h : fs.length = 1
        · simp [legalShape, validateNoAttrs_eq, h]
        · simp [legalShape, h]
      | unit => simp [legalShape]
    | enum vs =>
      by_cases h0 : vs = []
      · subst h0; simp [legalShape]
      · have h0' : vs.isEmpty = false := by simpa using h0
        have h1 : 1 ≤ vs.length := List.length_pos_iff.2 h0
        by_cases h2 : vs.length > 127
        · simp only [h0', h2, legalShape, if_true]
          constructor
          · intro h; exact nomatch h
          · intro h; omega
        · simp only [h0', h2, if_false, Bool.false_eq_true, legalShape]
          rw [validateVariants_eq tr vs h0]
          exact ⟨fun h => ⟨h1, Nat.not_lt.1 h2, h⟩, fun h => h.2.2⟩
    | union => simp [legalShape]
  match n with
  | 0 =>
    have := shape false
    simp only [List.replicate_zero, validateDeriveInput, List.length_nil, gt_iff_lt,
      Nat.not_lt_zero, if_false, List.head?_nil, Bool.false_and, Bool.false_eq_true, Nat.zero_le,
      true_and, Nat.lt_irrefl, decide_false]
    cases data with
    | struct fs => cases fs <;> exact this
    | enum vs => exact this
    | union => exact this
  | 1 =>
    have := shape true
    simp only [List.replicate_one, validateDeriveInput, List.length_singleton, gt_iff_lt,
      Nat.lt_irrefl, if_false, List.head?_cons, Bool.true_and, Nat.le_refl, true_and,
      Nat.zero_lt_one, decide_true]
    cases data with
    | struct fs =>
      simp only [Bool.not_false, if_true]
      cases fs <;> simp [legalShape]
    | enum vs =>
      simp only [Bool.not_true, Bool.false_eq_true, if_false]
      exact this
    | union => simp [legalShape]
  | n + 2 =>
    simp only [validateDeriveInput, List.length_replicate]
    rw [if_pos (by omega)]
    constructor
    · intro h; exact nomatch h
    · intro h; omega

/-! ## The generators do not panic after validation -/

theorem mapUnit_ok {f : Variant → Calc Unit} {vs : List Variant} (h : ∀ v ∈ vs, f v = .ok ()) :
    (Res.mapList f vs).map (fun _ => ()) = .ok () := by
  rw [Res.mapList_ok_of (g := fun _ => ()) h]
  rfl

theorem variant_cases {tr : Bool} {vs : List Variant} (h : legalVariants tr vs) {v : Variant}
    (hv : v ∈ vs) : payloadVariant v ∨ (v.fields = .unit ∧ tr = false) := by
  rcases h with h | ⟨u, rest, rfl, _, h2, _, h3, h4⟩
  · exact .inl (h v hv)
  · rcases List.mem_cons.1 hv with rfl | hv
    · exact .inr ⟨h2, h3⟩
    · exact .inl (h4 v hv)

theorem generateByField_ok {tr : Bool} {data : Data} (h : legalShape tr data) :
    generateByField data = .ok () := by
  cases data with
  | struct fs => cases fs with
    | named => rfl
    | unnamed => rfl
    | unit => exact h.elim
  | enum vs =>
    refine mapUnit_ok fun v hv => ?_
    rcases variant_cases h.2.2.1 hv with ⟨f, hf⟩ | ⟨hf, _⟩ <;> simp only [hf]
  | union => exact h.elim

theorem generateSizes_ok {tr : Bool} {data : Data} (h : legalShape tr data) :
    generateSizes data = .ok () := by
  cases data with
  | struct fs => cases fs with
    | named => rfl
    | unnamed => rfl
    | unit => exact h.elim
  | enum vs => rfl
  | union => exact h.elim

theorem generateDeserialize_ok {tr : Bool} {data : Data} (h : legalShape tr data) :
    generateDeserialize data tr = .ok () := by
  cases data with
  | struct fs => cases fs with
    | named => rfl
    | unnamed fs =>
      match fs, h.1 with
      | [f], _ => rfl
    | unit => exact h.elim
  | enum vs =>
    refine mapUnit_ok fun v hv => ?_
    rcases variant_cases h.2.2.1 hv with ⟨f, hf⟩ | ⟨hf, htr⟩
    · simp only [hf]; rfl
    · simp only [hf, htr]; rfl
  | union => exact h.elim

theorem generateVariants_rest (payload : Bool) : ∀ (vs : List Variant) (i : Nat),
    (∀ v ∈ vs, payloadVariant v) → generateVariants payload vs i = .ok ()
  | [], _, _ => rfl
  | v :: vs, i, h => by
    obtain ⟨f, hf⟩ := h v List.mem_cons_self
    simp only [generateVariants, hf, List.head?_cons, Option.isNone_some, Bool.and_false,
      Bool.false_eq_true, if_false]
    exact generateVariants_rest payload vs (i + 1) fun w hw => h w (List.mem_cons_of_mem _ hw)

theorem generateVariants_ok (payload : Bool) {tr : Bool} {vs : List Variant}
    (h : legalVariants tr vs) : generateVariants payload vs 0 = .ok () := by
  rcases h with h | ⟨v, rest, rfl, h1, h2, _, _, h3⟩
  · exact generateVariants_rest payload vs 0 h
  · simp only [generateVariants, h2, h1, isValidNoneIdentifier]
    exact generateVariants_rest payload rest 1 h3

theorem generateIndexable_ok {tr : Bool} {data : Data} (h : legalShape tr data) :
    generateIndexable data = .ok () := by
  cases data with
  | struct fs => cases fs with
    | named => rfl
    | unnamed fs =>
      match fs, h.1 with
      | [f], _ => rfl
    | unit => exact h.elim
  | enum vs => exact generateVariants_ok true h.2.2.1
  | union => exact h.elim

theorem generateProve_ok {tr : Bool} {data : Data} (h : legalShape tr data) :
    generateProve data = .ok () := by
  cases data with
  | struct fs => cases fs with
    | named => rfl
    | unnamed fs => rfl
    | unit => exact h.elim
  | enum vs => exact generateVariants_ok false h.2.2.1
  | union => exact h.elim

/-! ## The property -/

theorem extract_validate (item : Item) {g : List HelperAttr → Calc Unit}
    (hg : ∀ n, n ≤ 1 → legalShape (decide (0 < n)) item.data →
      g (List.replicate n .transparent) = .ok ()) :
    (extractHelperAttrs item >>= fun hs => validateDeriveInput item.data hs >>= fun _ => g hs) =
      .ok () ↔ ∃ tr, helperIs tr item.attrs ∧ legalShape tr item.data := by
  constructor
  · intro h
    obtain ⟨hs, h1, h2⟩ := Res.bind_eq_ok.1 h
    obtain ⟨_, h3, _⟩ := Res.bind_eq_ok.1 h2
    rw [transparent_replicate hs] at h1 h3
    obtain ⟨h4, h5⟩ := (validate_eq _ _).1 h3
    refine ⟨_, ?_, h5⟩
    obtain ⟨h6, h7⟩ := (extract_eq _ _).1 h1
    refine ⟨h6, ?_⟩
    rw [h7]
    have h8 : hs.length = 0 ∨ hs.length = 1 := by omega
    rcases h8 with h8 | h8 <;> rw [h8] <;> rfl
  · rintro ⟨tr, ⟨h1, h2⟩, h3⟩
    obtain ⟨n, hn, hd, ha⟩ : ∃ n, n ≤ 1 ∧ decide (0 < n) = tr ∧
        item.attrs.flatMap helperArgs = List.replicate n (.path false [("transparent", false)]) := by
      cases tr
      · exact ⟨0, Nat.zero_le 1, rfl, h2⟩
      · exact ⟨1, Nat.le_refl 1, rfl, h2⟩
    subst hd
    rw [(extract_eq item n).2 ⟨h1, ha⟩]
    show (validateDeriveInput item.data (List.replicate n .transparent) >>= fun _ =>
      g (List.replicate n .transparent)) = .ok ()
    rw [(validate_eq _ _).2 ⟨hn, h3⟩]
    exact hg n hn h3

/-- C22 for `#[derive(Serializable)]`: accepted are exactly the items whose attributes are well
formed and whose shape is legal. -/
theorem C22_serializable (item : Item) :
    deriveSerializable item = .ok () ↔
      ∃ tr, helperIs tr item.attrs ∧ legalShape tr item.data := by
  refine extract_validate item fun n _ h => ?_
  have ht : (List.replicate n HelperAttr.transparent).head?.isSome = decide (0 < n) := by
    cases n <;> rfl
  rw [ht]
  unfold generateSerializable
  rw [generateByField_ok h, generateDeserialize_ok h, generateSizes_ok h]
  rfl

/-- C22 for `#[derive(HashTreeRoot)]`. -/
theorem C22_hashTreeRoot (item : Item) :
    deriveHashTreeRoot item = .ok () ↔
      ∃ tr, helperIs tr item.attrs ∧ legalShape tr item.data :=
  extract_validate item fun _ _ h => generateByField_ok h

theorem validate_plain {data : Data} {g : Calc Unit} (hg : legalShape false data → g = .ok ()) :
    (validateDeriveInput data [] >>= fun _ => g) = .ok () ↔ legalShape false data := by
  have hv := validate_eq data 0
  constructor
  · intro h
    obtain ⟨_, h1, _⟩ := Res.bind_eq_ok.1 h
    exact (hv.1 h1).2
  · intro h
    have h1 : validateDeriveInput data [] = .ok () := hv.2 ⟨Nat.zero_le 1, h⟩
    rw [h1]
    exact hg h

/-- C22 for `#[derive(GeneralizedIndexable)]`, which does not look at the attributes of the item. -/
theorem C22_indexable (item : Item) :
    deriveGeneralizedIndexable item = .ok () ↔ legalShape false item.data :=
  validate_plain fun h => generateIndexable_ok h

/-- C22 for `#[derive(Prove)]`. -/
theorem C22_prove (item : Item) : deriveProve item = .ok () ↔ legalShape false item.data :=
  validate_plain fun h => generateProve_ok h

/-- C22 for `#[derive(SimpleSerialize)]`. -/
theorem C22_simpleSerialize (item : Item) :
    deriveSimpleSerialize item = .ok () ↔ legalShape false item.data := by
  refine validate_plain fun h => ?_
  unfold generateSerializable
  rw [generateByField_ok h, generateDeserialize_ok h, generateSizes_ok h, generateIndexable_ok h,
    generateProve_ok h]
  rfl

theorem namesF_fieldsTy (fs : List Field) : namesF (fieldsTy fs) = fs.map (·.name) := by
  induction fs with
  | nil => rfl
  | cons f fs ih => exact congrArg (f.name :: ·) ih

theorem legalF_fieldsTy (fs : List Field) :
    LegalF (fieldsTy fs) ↔ ∀ f ∈ fs, Legal f.ty := by
  induction fs with
  | nil => simp [fieldsTy, LegalF]
  | cons f fs ih => simp only [fieldsTy, LegalF, ih, List.mem_cons, forall_eq_or_imp]

theorem payload_variantsTy : ∀ (vs : List Variant), (∀ v ∈ vs, payloadVariant v) →
    noUnitV (variantsTy vs) = true ∧ countV (variantsTy vs) = vs.length ∧
      (LegalV (variantsTy vs) ↔ ∀ v ∈ vs, ∀ f ∈ v.fields.fields, Legal f.ty)
  | [], _ => by simp [variantsTy, noUnitV, countV, LegalV]
  | v :: vs, h => by
    obtain ⟨f, hf⟩ := h v List.mem_cons_self
    obtain ⟨h1, h2, h3⟩ := payload_variantsTy vs fun w hw => h w (List.mem_cons_of_mem _ hw)
    simp only [variantsTy, hf, noUnitV, countV, LegalV, h1, h2, h3, List.length_cons,
      List.mem_cons, forall_eq_or_imp, FieldList.fields, List.not_mem_nil, false_imp_iff,
      implies_true, and_true, and_self]

/-- C22: an accepted item stands for a legal SSZ type if and only if its parts do (rustc itself
demands that the names of the fields of a struct differ). -/
theorem C22_legal (data : Data) (h : legalShape false data)
    (hnames : ∀ fs, data = .struct (.named fs) → (fs.map (·.name)).Nodup) :
    ∃ t, dataTy data = some t ∧ (Legal t ↔ ∀ p ∈ parts data, Legal p) := by
  cases data with
  | struct fs => cases fs with
    | named fs =>
      refine ⟨_, rfl, ?_⟩
      simp only [Legal, namesF_fieldsTy, legalF_fieldsTy, parts, FieldList.fields, List.mem_map,
        forall_exists_index, and_imp, forall_apply_eq_imp_iff₂]
      have h1 : fs.map (·.name) ≠ [] := by simpa using h.1
      exact ⟨fun h => h.2.2, fun h => ⟨h1, hnames fs rfl, h⟩⟩
    | unnamed fs =>
      match fs, h.1 with
      | [f], _ =>
        refine ⟨_, rfl, ?_⟩
        simp [Legal, parts, FieldList.fields]
    | unit => exact h.elim
  | enum vs =>
    refine ⟨_, rfl, ?_⟩
    have hparts : (∀ p ∈ parts (.enum vs), Legal p) ↔
        ∀ v ∈ vs, ∀ f ∈ v.fields.fields, Legal f.ty := by
      simp only [parts, List.mem_flatMap, List.mem_map, forall_exists_index, and_imp]
      constructor
      · intro h v hv f hf; exact h _ v hv f hf rfl
      · rintro h _ v hv f hf rfl; exact h v hv f hf
    rw [hparts]
    obtain ⟨h1, h2, h3, -⟩ := h
    rcases h3 with h3 | ⟨v, rest, rfl, h4, h5, h6, _, h7⟩
    · match vs, h1 with
      | v :: vs, _ =>
        obtain ⟨f, hf⟩ := h3 v List.mem_cons_self
        obtain ⟨g1, g2, g3⟩ := payload_variantsTy (v :: vs) h3
        simp only [Legal, ← g3, and_iff_right_iff_imp]
        intro _
        simp only [variantsTy, hf, noUnitV, countV, List.length_cons] at g1 g2 h2 ⊢
        exact ⟨g1, by omega⟩
    · obtain ⟨g1, g2, g3⟩ := payload_variantsTy rest h7
      have hl := List.length_pos_iff.2 h6
      simp only [List.length_cons] at h2
      have hty : variantsTy (v :: rest) = .unit (variantsTy rest) := by
        simp only [variantsTy, h5]
      simp only [hty, Legal, unionShape, LegalV, g1, g2, g3, List.mem_cons, forall_eq_or_imp, h5,
        FieldList.fields, List.not_mem_nil, false_imp_iff, implies_true, true_and]
      exact ⟨fun h => h.2, fun h => ⟨⟨by omega, by omega⟩, h⟩⟩
  | union => exact h.elim

/-- A struct declaration for the given fields. -/
def declFields : Fields → List Field
  | .nil => []
  | .cons name t rest => ⟨name, [], t⟩ :: declFields rest

/-- An enum declaration for the given variants. -/
def declVariants : Variants → List Variant
  | .nil => []
  | .unit rest => ⟨"None", [], .unit⟩ :: declVariants rest
  | .data t rest => ⟨"Some", [], .unnamed [⟨"", [], t⟩]⟩ :: declVariants rest

theorem declFields_eq : ∀ fs : Fields, fieldsTy (declFields fs) = fs ∧ plainFields (declFields fs) ∧
    (declFields fs).map (·.name) = namesF fs
  | .nil => ⟨rfl, fun _ h => absurd h List.not_mem_nil, rfl⟩
  | .cons name t rest => by
    obtain ⟨h1, h2, h3⟩ := declFields_eq rest
    refine ⟨congrArg (Fields.cons name t) h1, ?_, congrArg (name :: ·) h3⟩
    intro f hf a ha
    rcases List.mem_cons.1 hf with rfl | hf
    · exact absurd ha List.not_mem_nil
    · exact h2 f hf a ha

theorem declVariants_eq : ∀ vs : Variants, variantsTy (declVariants vs) = vs ∧
    (declVariants vs).length = countV vs ∧ (∀ v ∈ declVariants vs, plainVariant v) ∧
    (noUnitV vs = true → ∀ v ∈ declVariants vs, payloadVariant v)
  | .nil => ⟨rfl, rfl, fun _ h => absurd h List.not_mem_nil, fun _ _ h => absurd h List.not_mem_nil⟩
  | .unit rest => by
    obtain ⟨h1, h2, h3, _⟩ := declVariants_eq rest
    refine ⟨congrArg Variants.unit h1, congrArg (· + 1) h2, ?_, fun h => (nomatch h)⟩
    intro v hv
    rcases List.mem_cons.1 hv with rfl | hv
    · exact ⟨fun _ h => absurd h List.not_mem_nil, fun _ h => absurd h List.not_mem_nil⟩
    · exact h3 v hv
  | .data t rest => by
    obtain ⟨h1, h2, h3, h4⟩ := declVariants_eq rest
    refine ⟨congrArg (Variants.data t) h1, congrArg (· + 1) h2, ?_, ?_⟩
    · intro v hv
      rcases List.mem_cons.1 hv with rfl | hv
      · refine ⟨fun _ h => absurd h List.not_mem_nil, fun f hf a ha => ?_⟩
        rcases List.mem_cons.1 hf with rfl | hf
        · exact absurd ha List.not_mem_nil
        · exact absurd hf List.not_mem_nil
      · exact h3 v hv
    · intro h v hv
      rcases List.mem_cons.1 hv with rfl | hv
      · exact ⟨_, rfl⟩
      · exact h4 h v hv

/-- C22: every legal container, newtype and union has a declaration, and it is accepted. -/
theorem C22_complete (t : Ty) (h : Legal t)
    (hd : (∃ fs, t = .container fs) ∨ (∃ u, t = .newtype u) ∨ ∃ vs, t = .union vs) :
    ∃ data, dataTy data = some t ∧ deriveSimpleSerialize ⟨[], data⟩ = .ok () := by
  simp only [C22_simpleSerialize]
  rcases hd with ⟨fs, rfl⟩ | ⟨u, rfl⟩ | ⟨vs, rfl⟩
  · obtain ⟨h1, h2, h3⟩ := declFields_eq fs
    refine ⟨.struct (.named (declFields fs)), ?_, ?_, rfl, h2⟩
    · simp only [dataTy, h1]
    · intro he
      rw [he] at h3
      exact h.1 h3.symm
  · refine ⟨.struct (.unnamed [⟨"", [], u⟩]), rfl, rfl, rfl, ?_⟩
    intro f hf a ha
    rcases List.mem_cons.1 hf with rfl | hf
    · exact absurd ha List.not_mem_nil
    · exact absurd hf List.not_mem_nil
  · obtain ⟨h1, h2, h3, h4⟩ := declVariants_eq vs
    have hs := h.1
    refine ⟨.enum (declVariants vs), ?_, ?_, ?_, ?_, h3⟩
    · simp only [dataTy, h1]
    · rw [h2]
      cases vs with
      | nil => exact hs.elim
      | unit rest => exact Nat.succ_pos _
      | data t rest => exact Nat.succ_pos _
    · rw [h2]
      cases vs with
      | nil => exact hs.elim
      | unit rest => exact hs.2.2
      | data t rest => exact hs.2
    · cases vs with
      | nil => exact hs.elim
      | unit rest =>
        obtain ⟨_, g2, _, g4⟩ := declVariants_eq rest
        refine .inr ⟨_, _, rfl, rfl, rfl, ?_, rfl, g4 hs.1⟩
        intro he
        rw [he] at g2
        have g2 : 0 = countV rest := g2
        have := hs.2.1
        omega
      | data t rest => exact .inl (h4 hs.1)

/-! ## Examples -/

/-- `enum { None, A(u8), B(u16) }` -/
def sampleEnum : Data := .enum
  [⟨"None", [⟨["doc"], .other⟩], .unit⟩,
   ⟨"A", [], .unnamed [⟨"", [], .uint .u8⟩]⟩,
   ⟨"B", [], .unnamed [⟨"", [], .uint .u16⟩]⟩]

example : legalShape false sampleEnum := by
  have h := (C22_simpleSerialize ⟨[], sampleEnum⟩).1 (by decide)
  exact h

example : ¬ legalShape true sampleEnum := by
  intro h
  rcases h.2.2.1 with h | ⟨_, _, _, _, _, _, h, _⟩
  · obtain ⟨f, hf⟩ := h _ List.mem_cons_self
    exact nomatch hf
  · exact nomatch h

/-- `#[ssz(transparent)] enum { A(u8), B(u16) }` -/
def sampleTransparent : Item where
  attrs := [⟨["derive"], .invalid⟩, ⟨["ssz"], .list [.path false [("transparent", false)]]⟩]
  data := .enum
    [⟨"A", [], .unnamed [⟨"", [], .uint .u8⟩]⟩, ⟨"B", [], .unnamed [⟨"", [], .uint .u16⟩]⟩]

example : deriveSerializable sampleTransparent = .ok () := by decide

example : ∃ tr, helperIs tr sampleTransparent.attrs ∧ legalShape tr sampleTransparent.data :=
  (C22_serializable _).1 (by decide)

example : deriveSerializable ⟨sampleTransparent.attrs, sampleEnum⟩ = .panic := by decide

end Ssz
