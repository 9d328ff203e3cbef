import Verif.Model.Display
import Verif.Props.Debug
import Mathlib.Tactic.Common

/-!
# Properties C68 and C69: the texts of errors and collections
-/

namespace Ssz

/-! ## Numbers -/

theorem toDigits_inj {b : Nat} (h1 : 1 < b) (h2 : b ≤ 16) : ∀ {n m : Nat},
    Nat.toDigits b n = Nat.toDigits b m → n = m := by
  have hd : ∀ i < 16, ∀ j < 16, Nat.digitChar i = Nat.digitChar j → i = j := by decide
  intro n
  induction n using Nat.strongRecOn with
  | _ n ih =>
    intro m h
    by_cases hn : n < b <;> by_cases hm : m < b
    · rw [Nat.toDigits_of_lt_base hn, Nat.toDigits_of_lt_base hm] at h
      exact hd n (by omega) m (by omega) (by simpa using h)
    · rw [Nat.toDigits_of_lt_base hn, Nat.toDigits_of_base_le h1 (by omega)] at h
      have := congrArg List.length h
      have h3 := Nat.length_toDigits_pos (b := b) (n := m / b)
      rw [List.length_append, List.length_singleton, List.length_singleton] at this
      omega
    · rw [Nat.toDigits_of_lt_base hm, Nat.toDigits_of_base_le h1 (by omega)] at h
      have := congrArg List.length h
      have h3 := Nat.length_toDigits_pos (b := b) (n := n / b)
      rw [List.length_append, List.length_singleton, List.length_singleton] at this
      omega
    · rw [Nat.toDigits_of_base_le (n := n) h1 (by omega),
        Nat.toDigits_of_base_le (n := m) h1 (by omega)] at h
      obtain ⟨h3, h4⟩ := List.append_inj' h rfl
      have h5 := ih (n / b) (Nat.div_lt_self (by omega) h1) h3
      have h6 := hd _ (Nat.lt_of_lt_of_le (Nat.mod_lt n (by omega)) h2) _
        (Nat.lt_of_lt_of_le (Nat.mod_lt m (by omega)) h2) (by simpa using h4)
      rw [← Nat.div_add_mod n b, ← Nat.div_add_mod m b, h5, h6]

/-- The digits of hexadecimal numbers. -/
def hexDigit (c : Char) : Bool := "0123456789abcdef".toList.contains c

theorem toDigits_hex {b : Nat} (h1 : 1 < b) (h2 : b ≤ 16) : ∀ (n : Nat), ∀ c ∈ Nat.toDigits b n,
    hexDigit c = true := by
  have hd : ∀ i < 16, hexDigit (Nat.digitChar i) = true := by decide
  intro n
  induction n using Nat.strongRecOn with
  | _ n ih =>
    intro c hc
    by_cases hn : n < b
    · rw [Nat.toDigits_of_lt_base hn, List.mem_singleton] at hc
      rw [hc]
      exact hd n (by omega)
    · rw [Nat.toDigits_of_base_le h1 (by omega), List.mem_append, List.mem_singleton] at hc
      rcases hc with hc | rfl
      · exact ih _ (Nat.div_lt_self (by omega) h1) c hc
      · exact hd _ (Nat.lt_of_lt_of_le (Nat.mod_lt n (by omega)) h2)

/-- The text is at its end, or goes on with a character that is not a digit. -/
def Stops (r : Text) : Prop := ∀ c, r.head? = some c → hexDigit c = false

theorem split_inj {p : Char → Bool} : ∀ {xs ys r r' : Text}, (∀ c ∈ xs, p c = true) →
    (∀ c ∈ ys, p c = true) → (∀ c, r.head? = some c → p c = false) →
    (∀ c, r'.head? = some c → p c = false) → xs ++ r = ys ++ r' → xs = ys ∧ r = r'
  | [], [], _, _, _, _, _, _, h => ⟨rfl, h⟩
  | [], y :: ys, r, r', _, hy, hr, _, h => by
    have h : r = y :: (ys ++ r') := h
    have h1 := hr y (by rw [h]; rfl)
    rw [hy y (by simp)] at h1
    cases h1
  | x :: xs, [], r, r', hx, _, _, hr, h => by
    have h : x :: (xs ++ r) = r' := h
    have h1 := hr x (by rw [← h]; rfl)
    rw [hx x (by simp)] at h1
    cases h1
  | x :: xs, y :: ys, r, r', hx, hy, hr, hr', h => by
    simp only [List.cons_append, List.cons.injEq] at h
    obtain ⟨h1, h2⟩ := split_inj (fun c hc => hx c (by simp [hc])) (fun c hc => hy c (by simp [hc]))
      hr hr' h.2
    exact ⟨by rw [h.1, h1], h2⟩

theorem digits_inj {b : Nat} (h1 : 1 < b) (h2 : b ≤ 16) {n m : Nat} {r r' : Text} (hr : Stops r)
    (hr' : Stops r') (h : Nat.toDigits b n ++ r = Nat.toDigits b m ++ r') : n = m ∧ r = r' := by
  obtain ⟨h3, h4⟩ := split_inj (toDigits_hex h1 h2 n) (toDigits_hex h1 h2 m) hr hr' h
  exact ⟨toDigits_inj h1 h2 h3, h4⟩

theorem decimal_eq (n : Nat) : decimal n = Nat.toDigits 10 n := by
  rw [decimal, Nat.toString_eq_ofList_toDigits, String.toList_ofList]

theorem decimal_inj {n m : Nat} {r r' : Text} (hr : Stops r) (hr' : Stops r')
    (h : decimal n ++ r = decimal m ++ r') : n = m ∧ r = r' := by
  rw [decimal_eq, decimal_eq] at h
  exact digits_inj (by decide) (by decide) hr hr' h

theorem decimal_end {n m : Nat} (h : decimal n = decimal m) : n = m := by
  rw [decimal_eq, decimal_eq] at h
  exact toDigits_inj (by decide) (by decide) h

theorem hexadecimal_inj {n m : Nat} {r r' : Text} (hr : Stops r) (hr' : Stops r')
    (h : hexadecimal n ++ r = hexadecimal m ++ r') : n = m ∧ r = r' :=
  digits_inj (by decide) (by decide) hr hr' h

/-- A number does not start with a letter or other character. -/
theorem decimal_head {n : Nat} {c : Char} {r r' : Text} (hc : c.isDigit = false)
    (h : decimal n ++ r = c :: r') : False := by
  rw [decimal_eq] at h
  cases hd : Nat.toDigits 10 n with
  | nil => exact Nat.toDigits_ne_nil hd
  | cons d ds =>
    rw [hd, List.cons_append, List.cons.injEq] at h
    have := Nat.isDigit_of_mem_toDigits (b := 10) (n := n) (c := d) (by decide) (by decide)
      (by rw [hd]; simp)
    rw [h.1, hc] at this
    cases this

theorem stops_cons {c : Char} {r : Text} (h : hexDigit c = false) : Stops (c :: r) := by
  rintro _ ⟨⟩; exact h

theorem stops_nil : Stops [] := by rintro _ ⟨⟩

theorem stops_lit {s : Text} {r : Text} (h : (s.head?.any fun c => !hexDigit c) = true) :
    Stops (lit s ++ r) := by
  intro c hc
  rw [lit] at hc
  cases hs : s with
  | nil => rw [hs] at h; cases h
  | cons d ds =>
    rw [hs] at h hc
    cases hc
    simpa using h

theorem stops_end {s : Text} (h : (s.head?.any fun c => !hexDigit c) = true) :
    Stops (lit s) := by
  have := stops_lit (r := []) h
  rwa [List.append_nil] at this

theorem decimal_lit {n : Nat} {s : Text} {r r' : Text}
    (hs : (s.head?.any fun c => !c.isDigit) = true) (h : decimal n ++ r = lit s ++ r') :
    False := by
  rw [lit] at h
  cases hc : s with
  | nil => rw [hc] at hs; cases hs
  | cons d ds =>
    rw [hc] at h hs
    exact decimal_head (by simpa using hs) h

theorem decimal_lit_end {n : Nat} {s r : Text} (hs : (s.head?.any fun c => !c.isDigit) = true)
    (h : decimal n ++ r = lit s) : False := decimal_lit (r' := []) hs (by rw [h, List.append_nil])

/-- The two strings differ at a position that both have. -/
def differ (s t : Text) : Bool := (s.zip t).any fun p => p.1 != p.2

theorem lit_ne {s t : Text} {r r' : Text} (hd : differ s t = true) (h : lit s ++ r = lit t ++ r') :
    False := by
  have key : ∀ {xs ys : Text}, ((xs.zip ys).any fun p => p.1 != p.2) = true → xs ++ r ≠ ys ++ r' := by
    intro xs
    induction xs with
    | nil => intro ys h; simp at h
    | cons x xs ih =>
      intro ys h
      cases ys with
      | nil => simp at h
      | cons y ys =>
        intro he
        simp only [List.cons_append, List.cons.injEq] at he
        rw [List.zip_cons_cons, List.any_cons, he.1] at h
        exact ih (by simpa using h) he.2
  rw [lit, lit] at h
  exact key hd h

theorem lit_ne_end {s t : Text} {r : Text} (hd : differ s t = true) (h : lit s ++ r = lit t) :
    False := lit_ne (r' := []) hd (by rw [h, List.append_nil])

theorem lit_ne_start {s t : Text} {r : Text} (hd : differ s t = true) (h : lit s = lit t ++ r) :
    False := lit_ne (r := []) hd (by rw [← h, List.append_nil])

theorem lit_ne_lit {s t : Text} (hd : differ s t = true) (h : lit s = lit t) : False :=
  lit_ne (r := []) (r' := []) hd (by rw [h])

/-- Closes a goal with two texts that start with different literals. -/
macro "clash " h:ident : tactic => `(tactic| (exfalso; first
  | (with_reducible refine lit_ne ?_ $h); decide +kernel
  | (with_reducible refine lit_ne_end ?_ $h); decide +kernel
  | (with_reducible refine lit_ne_start ?_ $h); decide +kernel
  | (with_reducible refine lit_ne_lit ?_ $h); decide +kernel
  | (with_reducible refine decimal_lit ?_ $h); decide +kernel
  | (with_reducible refine decimal_lit ?_ (Eq.symm $h)); decide +kernel
  | (with_reducible refine decimal_lit_end ?_ $h); decide +kernel
  | (with_reducible refine decimal_lit_end ?_ (Eq.symm $h)); decide +kernel))

/-- Closes `Stops` for a text that starts with a literal. -/
macro "stop" : tactic => `(tactic| first
  | ((with_reducible refine stops_end ?_); decide +kernel)
  | ((with_reducible refine stops_lit ?_); decide +kernel))

/-! ## Strings -/

/-- The characters with an escape of their own, with the letter of the escape. -/
def escapes : List (Char × Char) :=
  [('\x00', '0'), ('\t', 't'), ('\r', 'r'), ('\n', 'n'), ('\\', '\\'), ('"', '"')]

theorem escape_cases (plain : Char → Bool) (c : Char) :
    (∃ k, (c, k) ∈ escapes ∧ escapeChar plain c = ['\\', k]) ∨
    (c ≠ '\\' ∧ c ≠ '"' ∧ escapeChar plain c = [c]) ∨
    escapeChar plain c = '\\' :: 'u' :: '{' :: (hexadecimal c.toNat ++ ['}']) := by
  unfold escapeChar
  by_cases h0 : c = '\x00'
  · exact .inl ⟨'0', by simp [escapes, h0], by rw [if_pos h0]⟩
  by_cases h1 : c = '\t'
  · exact .inl ⟨'t', by simp [escapes, h1], by rw [if_neg h0, if_pos h1]⟩
  by_cases h2 : c = '\r'
  · exact .inl ⟨'r', by simp [escapes, h2], by rw [if_neg h0, if_neg h1, if_pos h2]⟩
  by_cases h3 : c = '\n'
  · exact .inl ⟨'n', by simp [escapes, h3], by rw [if_neg h0, if_neg h1, if_neg h2, if_pos h3]⟩
  by_cases h4 : c = '\\'
  · exact .inl ⟨'\\', by simp [escapes, h4], by
      rw [if_neg h0, if_neg h1, if_neg h2, if_neg h3, if_pos h4]⟩
  by_cases h5 : c = '"'
  · exact .inl ⟨'"', by simp [escapes, h5], by
      rw [if_neg h0, if_neg h1, if_neg h2, if_neg h3, if_neg h4, if_pos h5]⟩
  rw [if_neg h0, if_neg h1, if_neg h2, if_neg h3, if_neg h4, if_neg h5]
  by_cases h6 : plain c = true
  · exact .inr (.inl ⟨h4, h5, by rw [if_pos h6]⟩)
  · right; right
    rw [if_neg h6]
    simp

theorem escapes_inj : ∀ p ∈ escapes, ∀ q ∈ escapes, (p.2 = q.2 → p.1 = q.1) ∧ p.2 ≠ 'u' := by
  decide

theorem escape_inj {plain : Char → Bool} {c d : Char} {r r' : Text}
    (h : escapeChar plain c ++ r = escapeChar plain d ++ r') : c = d ∧ r = r' := by
  rcases escape_cases plain c with ⟨k, hk, hc⟩ | ⟨h1, _, hc⟩ | hc <;>
    rcases escape_cases plain d with ⟨l, hl, hd⟩ | ⟨h2, _, hd⟩ | hd <;> rw [hc, hd] at h
  · simp only [List.cons_append, List.nil_append, List.cons.injEq, true_and] at h
    exact ⟨(escapes_inj _ hk _ hl).1 h.1, h.2⟩
  · simp only [List.cons_append, List.nil_append, List.cons.injEq] at h
    exact absurd h.1.symm h2
  · simp only [List.cons_append, List.nil_append, List.cons.injEq, true_and] at h
    exact absurd h.1 (escapes_inj _ hk _ hk).2
  · simp only [List.cons_append, List.nil_append, List.cons.injEq] at h
    exact absurd h.1 h1
  · simpa using h
  · simp only [List.cons_append, List.nil_append, List.cons.injEq] at h
    exact absurd h.1 h1
  · simp only [List.cons_append, List.nil_append, List.cons.injEq, true_and] at h
    exact absurd h.1.symm (escapes_inj _ hl _ hl).2
  · simp only [List.cons_append, List.nil_append, List.cons.injEq] at h
    exact absurd h.1.symm h2
  · simp only [List.cons_append, List.append_assoc, List.cons.injEq, true_and] at h
    obtain ⟨h3, h4⟩ := hexadecimal_inj (stops_cons (by decide)) (stops_cons (by decide)) h
    exact ⟨Char.toNat_inj.1 h3, by simpa using h4⟩

/-- The escape of a character does not start with a quote. -/
theorem escape_quote {plain : Char → Bool} {c : Char} {r r' : Text}
    (h : escapeChar plain c ++ r = '"' :: r') : False := by
  rcases escape_cases plain c with ⟨k, hk, hc⟩ | ⟨_, h1, hc⟩ | hc <;> rw [hc] at h <;>
    simp only [List.cons_append, List.nil_append, List.cons.injEq] at h
  · exact absurd h.1 (by decide)
  · exact h1 h.1
  · exact absurd h.1 (by decide)

theorem str_inj {plain : Char → Bool} : ∀ {xs ys : List Char} {r r' : Text},
    xs.flatMap (escapeChar plain) ++ '"' :: r = ys.flatMap (escapeChar plain) ++ '"' :: r' →
    xs = ys ∧ r = r'
  | [], [], _, _, h => by simpa using h
  | [], y :: ys, _, _, h => by
    rw [List.flatMap_cons, List.append_assoc] at h
    exact (escape_quote h.symm).elim
  | x :: xs, [], _, _, h => by
    rw [List.flatMap_cons, List.append_assoc] at h
    exact (escape_quote h).elim
  | x :: xs, y :: ys, _, _, h => by
    rw [List.flatMap_cons, List.flatMap_cons, List.append_assoc, List.append_assoc] at h
    obtain ⟨h1, h2⟩ := escape_inj h
    obtain ⟨h3, h4⟩ := str_inj h2
    exact ⟨by rw [h1, h3], h4⟩

/-! ## Sequences -/

/-- The text is at its end, or goes on with a comma or a closing bracket. -/
def Closes (r : Text) : Prop := ∀ c, r.head? = some c → c = ',' ∨ c = ']' ∨ c = ')'

theorem Closes.stops {r : Text} (h : Closes r) : Stops r := by
  intro c hc
  rcases h c hc with rfl | rfl | rfl <;> decide

theorem closes_cons {c : Char} {r : Text} (h : c = ',' ∨ c = ']' ∨ c = ')') : Closes (c :: r) := by
  rintro _ ⟨⟩; exact h

/-- The value can be told from a text that begins with the text of the value and ends there or goes on
as in a list; and so can the end of the text of the value. The values are those with property `P`. -/
def Reads {α : Type} (P : α → Prop) (f : α → Text) : Prop :=
  ∀ x y r r', P x → P y → Closes r → Closes r' → f x ++ r = f y ++ r' → x = y ∧ r = r'

theorem debugRest_inj {α : Type} {P : α → Prop} {f : α → Text} (hf : Reads P f) :
    ∀ {xs ys : List α} {r r' : Text}, (∀ x ∈ xs, P x) → (∀ y ∈ ys, P y) →
    debugRest f xs ++ ']' :: r = debugRest f ys ++ ']' :: r' → xs = ys ∧ r = r'
  | [], [], _, _, _, _, h => by simpa [debugRest] using h
  | [], y :: ys, _, _, _, _, h => by simp [debugRest] at h
  | x :: xs, [], _, _, _, _, h => by simp [debugRest] at h
  | x :: xs, y :: ys, r, r', hx, hy, h => by
    rw [debugRest, debugRest, List.append_assoc, List.append_assoc, List.append_assoc,
      List.append_assoc] at h
    have hc : ∀ (zs : List α) (s : Text), Closes (debugRest f zs ++ ']' :: s) := by
      intro zs s
      cases zs with
      | nil => exact closes_cons (by simp)
      | cons z zs => 
        have : debugRest f (z :: zs) ++ ']' :: s = ',' :: (' ' :: (f z ++ debugRest f zs ++ ']' :: s)) := by
          simp [debugRest]
        rw [this]
        exact closes_cons (by simp)
    obtain ⟨h1, h2⟩ := hf x y _ _ (hx x (by simp)) (hy y (by simp)) (hc _ _) (hc _ _)
      (List.append_cancel_left h)
    obtain ⟨h3, h4⟩ := debugRest_inj hf (fun z hz => hx z (by simp [hz]))
      (fun z hz => hy z (by simp [hz])) h2
    exact ⟨by rw [h1, h3], h4⟩

theorem debugVec_inj {α : Type} {P : α → Prop} {f : α → Text} (hf : Reads P f) {xs ys : List α}
    {r r' : Text} (hx : ∀ x ∈ xs, P x) (hy : ∀ y ∈ ys, P y)
    (hl : xs.length = ys.length ∨ ∀ x r r', f x ++ r ≠ ']' :: r')
    (h : debugVec f xs ++ r = debugVec f ys ++ r') : xs = ys ∧ r = r' := by
  have he : ∀ (z : α) (zs : List α) (s : Text), debugVec f (z :: zs) ++ s =
      '[' :: (f z ++ (debugRest f zs ++ ']' :: s)) := by
    intro z zs s
    simp [debugVec]
  have hn : ∀ s : Text, debugVec f [] ++ s = '[' :: ']' :: s := fun s => by simp [debugVec]
  cases xs with
  | nil =>
    cases ys with
    | nil => 
      rw [hn, hn] at h
      simpa using h
    | cons y ys =>
      rw [hn, he, List.cons.injEq] at h
      rcases hl with hl | hl
      · simp at hl
      · exact absurd h.2.symm (hl _ _ _)
  | cons x xs =>
    cases ys with
    | nil =>
      rw [hn, he, List.cons.injEq] at h
      rcases hl with hl | hl
      · simp at hl
      · exact absurd h.2 (hl _ _ _)
    | cons y ys =>
      rw [he, he, List.cons.injEq] at h
      -- the first element and the rest, read as a rest that starts with the first element
      have h1 : debugRest f (x :: xs) ++ ']' :: r = debugRest f (y :: ys) ++ ']' :: r' := by
        rw [debugRest, debugRest, List.append_assoc, List.append_assoc, List.append_assoc,
          List.append_assoc, h.2]
      exact debugRest_inj hf hx hy h1

/-! ## C68 -/

theorem element_inj {plain : Char → Bool} {a b : PathElement} {r r' : Text}
    (h : a.debug plain ++ r = b.debug plain ++ r') : a = b ∧ r = r' := by
  cases a <;> cases b <;> simp only [PathElement.debug, debugStr, List.append_assoc] at h
  case index.index i j =>
    obtain ⟨h1, h2⟩ := decimal_inj (by stop) (by stop)
      (List.append_cancel_left h)
    exact ⟨by rw [h1], by simpa using h2⟩
  case field.field s t =>
    obtain ⟨h1, h2⟩ := str_inj (List.append_cancel_left (List.append_cancel_left h))
    exact ⟨by rw [String.toList_inj.1 h1], by simpa using h2⟩
  all_goals first
    | clash h
    | exact ⟨rfl, List.append_cancel_left h⟩

theorem element_reads (plain : Char → Bool) :
    Reads (fun _ : PathElement => True) (PathElement.debug plain) :=
  fun _ _ _ _ _ _ _ _ h => element_inj h

/-- C68 for `TypeError`. -/
theorem C68_type (e f : TypeError) : e.display = f.display ↔ e = f := by
  refine ⟨fun h => ?_, fun h => by rw [h]⟩
  cases e; cases f
  rw [decimal_end (List.append_cancel_left h)]

/-- C68 for `InstanceError`. -/
theorem C68_instance (e f : InstanceError) : e.display = f.display ↔ e = f := by
  refine ⟨fun h => ?_, fun h => by rw [h]⟩
  cases e <;> cases f <;> simp only [InstanceError.display, List.append_assoc] at h
  case exact.exact a b c d =>
    obtain ⟨h1, h2⟩ := decimal_inj (by stop) (by stop)
      (List.append_cancel_left h)
    obtain ⟨h3, -⟩ := decimal_inj (by stop) (by stop)
      (List.append_cancel_left h2)
    rw [h1, h3]
  case exact.bounded a b c d => exact (decimal_lit (by decide +kernel) h.symm).elim
  case bounded.exact a b c d => exact (decimal_lit (by decide +kernel) h).elim
  case bounded.bounded a b c d =>
    obtain ⟨h1, h2⟩ := decimal_inj (by stop) (by stop) h
    rw [h1, decimal_end (List.append_cancel_left h2)]

/-- C68 for `SerializeError`. -/
theorem C68_serialize (e f : SerError) : e.display = f.display ↔ e = f := by
  refine ⟨fun h => ?_, fun h => by rw [h]⟩
  cases e <;> cases f <;> simp only [SerError.display, List.append_assoc] at h
  case maximumEncodedLengthReached.maximumEncodedLengthReached a b =>
    obtain ⟨h1, -⟩ := decimal_inj (by stop) (by stop)
      (List.append_cancel_left h)
    rw [h1]
  case invalidInstance.invalidInstance a b =>
    rw [(C68_instance a b).1 (List.append_cancel_left h)]
  case invalidType.invalidType a b =>
    rw [(C68_type a b).1 (List.append_cancel_left h)]
  all_goals clash h

set_option maxHeartbeats 1000000 in
/-- C68 for `DeserializeError`. -/
theorem C68_deserialize (e f : DeError) : e.display = f.display ↔ e = f := by
  refine ⟨fun h => ?_, fun h => by rw [h]⟩
  cases e <;> cases f <;> simp only [DeError.display, List.append_assoc] at h
  case expectedFurtherInput.expectedFurtherInput a b c d =>
    obtain ⟨h1, h2⟩ := decimal_inj (by stop) (by stop)
      (List.append_cancel_left h)
    obtain ⟨h3, -⟩ := decimal_inj (by stop) (by stop)
      (List.append_cancel_left h2)
    rw [h1, h3]
  case additionalInput.additionalInput a b c d =>
    obtain ⟨h1, h2⟩ := decimal_inj (by stop) (by stop) h
    obtain ⟨h3, -⟩ := decimal_inj (by stop) (by stop)
      (List.append_cancel_left h2)
    rw [h1, h3]
  case invalidByte.invalidByte a b =>
    obtain ⟨h1, -⟩ := hexadecimal_inj (by stop) (by stop)
      (List.append_cancel_left h)
    rw [BitVec.eq_of_toNat_eq h1]
  case invalidInstance.invalidInstance a b =>
    rw [(C68_instance a b).1 (List.append_cancel_left h)]
  case invalidType.invalidType a b =>
    rw [(C68_type a b).1 (List.append_cancel_left h)]
  case invalidOffsetsLength.invalidOffsetsLength a b =>
    obtain ⟨h1, -⟩ := decimal_inj (by stop) (by stop)
      (List.append_cancel_left h)
    rw [h1]
  case offsetNotIncreasing.offsetNotIncreasing a b c d =>
    obtain ⟨h1, h2⟩ := decimal_inj (by stop) (by stop)
      (List.append_cancel_left h)
    rw [h1, decimal_end (List.append_cancel_left h2)]
  all_goals first
    | clash h
    | rfl

/-- C68 for `MerkleizationError`. -/
theorem C68_merkleization (plain : Char → Bool) (e f : MerkError) :
    e.display plain = f.display plain ↔ e = f := by
  refine ⟨fun h => ?_, fun h => by rw [h]⟩
  cases e <;> cases f <;> simp only [MerkError.display] at h
  case serializationError.serializationError a b =>
    rw [(C68_serialize a b).1 (List.append_cancel_left h)]
  case inputExceedsLimit.inputExceedsLimit a b =>
    rw [decimal_end (List.append_cancel_left h)]
  case invalidPathElement.invalidPathElement a b =>
    have h1 := List.append_cancel_left h
    rw [(element_inj (plain := plain) (a := a) (b := b) (r := []) (r' := []) (by rw [h1])).1]
  case invalidPath.invalidPath a b =>
    have h1 := List.append_cancel_left h
    rw [(debugVec_inj (xs := a) (ys := b) (element_reads plain) (r := []) (r' := []) (fun _ _ => trivial)
      (fun _ _ => trivial) (Or.inr fun x r r' h => by cases x <;> simp [PathElement.debug, lit] at h)
      (by rw [h1])).1]
  case invalidPathElement.invalidPath a b =>
    cases b <;> cases a <;> simp [PathElement.debug, debugVec, lit] at h
  case invalidPath.invalidPathElement a b =>
    cases a <;> cases b <;> simp [PathElement.debug, debugVec, lit] at h
  all_goals first
    | clash h
    | rfl

/-- C68: two errors with the same message are equal. -/
theorem C68_message (plain : Char → Bool) (e f : AnyError) :
    e.display plain = f.display plain ↔ e = f := by
  refine ⟨fun h => ?_, fun h => by rw [h]⟩
  cases e <;> cases f <;> simp only [AnyError.display] at h
  case serialize.serialize a b => rw [(C68_serialize a b).1 (List.append_cancel_left h)]
  case deserialize.deserialize a b => rw [(C68_deserialize a b).1 (List.append_cancel_left h)]
  case merkleization.merkleization a b =>
    rw [(C68_merkleization plain a b).1 (List.append_cancel_left h)]
  case instance.instance a b => rw [(C68_instance a b).1 (List.append_cancel_left h)]
  case type.type a b => rw [(C68_type a b).1 (List.append_cancel_left h)]
  all_goals clash h

/-- The message for a path with a quote in the name of a field. -/
example : AnyError.display (fun _ => true) (.merkleization (.invalidPath [.index 17, .field "a\"b"])) =
    "merkleization error: invalid path [Index(17), Field(\"a\\\"b\")]".toList := by decide +kernel

/-- The messages of the repository's errors, one for each format string with numbers in it. -/
example :
    (AnyError.serialize (.maximumEncodedLengthReached 5)).display (fun _ => true) =
      "could not serialize: the encoded length is 5 which meets or exceeds the maximum length 4294967296".toList ∧
    (AnyError.deserialize (.expectedFurtherInput 1 20)).display (fun _ => true) =
      "could not deserialize: expected at least 20 byte(s) when decoding but provided only 1 byte(s)".toList ∧
    (AnyError.deserialize (.additionalInput 1 20)).display (fun _ => true) =
      "could not deserialize: 1 byte(s) given but only expected (up to) 20 byte(s)".toList ∧
    (AnyError.deserialize (.invalidByte 255)).display (fun _ => true) =
      "could not deserialize: invalid byte ff when decoding data of the expected type".toList ∧
    (AnyError.deserialize (.invalidOffsetsLength 6)).display (fun _ => true) =
      "could not deserialize: the offsets length provided 6 is not a multiple of the size per length offset 4 bytes".toList ∧
    (AnyError.deserialize (.offsetNotIncreasing 9 8)).display (fun _ => true) =
      "could not deserialize: invalid offset points to byte 8 before byte 9".toList ∧
    (AnyError.instance (.exact 3 4)).display (fun _ => true) =
      "error constructing instance: required 3 elements for this type but 4 elements given".toList ∧
    (AnyError.instance (.bounded 3 4)).display (fun _ => true) =
      "error constructing instance: 4 elements given for a type with (inclusive) upper bound 3".toList ∧
    (AnyError.type (.invalidBound 0)).display (fun _ => true) =
      "type error: the type for this value is invalid with bound 0".toList := by decide +kernel

/-! ## C69 -/

theorem decimal_reads : Reads (fun _ => True) decimal :=
  fun _ _ _ _ _ _ h1 h2 h => decimal_inj h1.stops h2.stops h

/-- C69 for `List`: if the values of the element type can be told from their `Debug` text, then so can
the lists. -/
theorem C69_list {α : Type} {P : α → Prop} {f : α → Text} (hf : Reads P f) (name : Text) (n : Nat) :
    Reads (fun xs : List α => ∀ x ∈ xs, P x) (List.debugSsz name f n) := by
  intro xs ys r r' hx hy _ _ h
  simp only [List.debugSsz, List.append_assoc, List.append_cancel_left_eq] at h
  obtain ⟨h1, h2⟩ := decimal_inj (by stop) (by stop) h
  exact debugVec_inj hf hx hy (.inl h1) (List.append_cancel_left h2)

/-- C69 for `Vector`. -/
theorem C69_vector {α : Type} {P : α → Prop} {f : α → Text} (hf : Reads P f) (name : Text) (n : Nat) :
    Reads (fun xs : List α => xs.length = n ∧ ∀ x ∈ xs, P x) (Vector.debugSsz name f n) := by
  intro xs ys r r' hx hy _ _ h
  simp only [Vector.debugSsz, List.append_assoc, List.append_cancel_left_eq] at h
  exact debugVec_inj hf hx.2 hy.2 (.inl (hx.1.trans hy.1.symm)) h

/-- C69: the text also tells the bound: collections whose element types have the same name and whose
texts are equal have the same bound. -/
theorem C69_bound {α : Type} {P : α → Prop} {f : α → Text} (hf : Reads P f) (name : Text) {n m : Nat}
    {xs ys : List α} (hx : ∀ x ∈ xs, P x) (hy : ∀ x ∈ ys, P x) :
    (List.debugSsz name f n xs = List.debugSsz name f m ys → n = m ∧ xs = ys) ∧
    (xs.length = n → ys.length = m →
      Vector.debugSsz name f n xs = Vector.debugSsz name f m ys → n = m ∧ xs = ys) := by
  constructor
  · intro h
    have h0 := h
    simp only [List.debugSsz, List.append_assoc, List.append_cancel_left_eq] at h
    obtain ⟨rfl, -⟩ := decimal_inj (by stop) (by stop) h
    exact ⟨rfl, (C69_list hf name n xs ys [] [] hx hy nofun nofun (by rw [h0])).1⟩
  · intro h1 h2 h
    have h0 := h
    simp only [Vector.debugSsz, List.append_assoc, List.append_cancel_left_eq] at h
    obtain ⟨rfl, -⟩ := decimal_inj (by stop) (by stop) h
    exact ⟨rfl, (C69_vector hf name n xs ys [] [] ⟨h1, hx⟩ ⟨h2, hy⟩ nofun nofun (by rw [h0])).1⟩

theorem grouped_no_close (bits : List Bool) : ∀ c ∈ grouped bits, (c != ']') = true := by
  have hb : ∀ b, (bitChar b != ']') = true := by decide +kernel
  fun_induction grouped bits with
  | case1 a b c d e rest ih =>
    intro x hx
    simp only [List.mem_append, List.mem_cons, List.not_mem_nil, or_false] at hx
    rcases hx with (rfl | rfl | rfl | rfl | rfl) | hx
    · exact hb _
    · exact hb _
    · exact hb _
    · exact hb _
    · decide
    · exact ih x hx
  | case2 bits h =>
    intro x hx
    obtain ⟨b, _, rfl⟩ := List.mem_map.1 hx
    exact hb b

theorem grouped_inj {xs ys : List Bool} {r r' : Text}
    (h : grouped xs ++ ']' :: r = grouped ys ++ ']' :: r') : xs = ys ∧ r = r' := by
  obtain ⟨h1, h2⟩ := split_inj (grouped_no_close xs) (grouped_no_close ys)
    (by rintro _ ⟨⟩; decide) (by rintro _ ⟨⟩; decide) h
  have := congrArg ungroup h1
  rw [ungroup_grouped, ungroup_grouped] at this
  exact ⟨this, by simpa using h2⟩

/-- C69 for `Bitlist` and `Bitvector` as elements. -/
theorem C69_bits (n : Nat) :
    Reads (fun _ : List Bool => True) (fun bits => Bitlist.debug n ⟨bits, []⟩) ∧
    Reads (fun _ : List Bool => True) (fun bits => Bitvector.debug n ⟨bits, []⟩) := by
  constructor
  · intro xs ys r r' _ _ _ _ h
    simp only [(C56_text n _).1, List.append_assoc, List.append_cancel_left_eq] at h
    have h0 : ∀ s : Text, Stops (", cap=".toList ++ s) := by
      have := @stops_lit ", cap=".toList
      simp only [lit] at this
      exact fun s => this (by decide +kernel)
    obtain ⟨-, h1⟩ := decimal_inj (h0 _) (h0 _) h
    simp only [List.append_cancel_left_eq] at h1
    exact grouped_inj h1
  · intro xs ys r r' _ _ _ _ h
    simp only [(C56_text n _).2, List.append_assoc, List.append_cancel_left_eq] at h
    exact grouped_inj h

/-- C69: lists and vectors of numbers, nested to any depth, can be told from their text; here one in
the other. -/
example (n m : Nat) : Reads (fun xs : List (List Nat) => ∀ x ∈ xs, x.length = m ∧ ∀ y ∈ x, True)
    (List.debugSsz "ssz_rs::Vector<u8>".toList (Vector.debugSsz "u8".toList decimal m) n) :=
  C69_list (C69_vector decimal_reads _ _) _ _

/-- Without the length in the text, two lists with unreadable elements may have the same one: the
condition on the elements is needed. -/
example : debugVec (fun s : String => s.toList) ["a, b", "c"] =
    debugVec (fun s : String => s.toList) ["a", "b, c"] := by decide +kernel

example : List.debugSsz "u8".toList decimal 4 [1, 20] = "List<u8, 4>(len=2)[1, 20]".toList := by decide +kernel

/-- The premises of C69_bound. -/
example : (∀ x ∈ [1, 20], (fun _ : Nat => True) x) ∧ Reads (fun _ : Nat => True) decimal ∧
    List.debugSsz "u8".toList decimal 14 [1, 20] = "List<u8, 14>(len=2)[1, 20]".toList ∧
    Vector.debugSsz "u16".toList decimal 12 (List.replicate 12 300) =
      "Vector<u16, 12>[300, 300, 300, 300, 300, 300, 300, 300, 300, 300, 300, 300]".toList :=
  ⟨fun _ _ => trivial, decimal_reads, by decide +kernel, by decide +kernel⟩

end Ssz
