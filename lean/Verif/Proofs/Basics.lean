import Verif.Spec.Encoding
import Mathlib.Data.List.Forall2

/-!
# Basic lemmas: outcomes, buffers, little-endian bytes
-/

namespace Ssz

variable {ε ε' α β : Type}

namespace Res

@[simp] theorem ok_bind (a : α) (f : α → Res ε β) : (Res.ok a >>= f) = f a := rfl
@[simp] theorem err_bind (e : ε) (f : α → Res ε β) : (Res.err e >>= f) = Res.err e := rfl
@[simp] theorem panic_bind (f : α → Res ε β) : (Res.panic >>= f) = Res.panic := rfl
@[simp] theorem pure_eq (a : α) : (pure a : Res ε α) = Res.ok a := rfl

theorem bind_eq_ok {x : Res ε α} {f : α → Res ε β} {b : β} :
    (x >>= f) = .ok b ↔ ∃ a, x = .ok a ∧ f a = .ok b := by
  cases x <;> simp

theorem bind_eq_panic {x : Res ε α} {f : α → Res ε β} :
    (x >>= f) = .panic ↔ x = .panic ∨ ∃ a, x = .ok a ∧ f a = .panic := by
  cases x <;> simp

theorem bind_eq_err {x : Res ε α} {f : α → Res ε β} {e : ε} :
    (x >>= f) = .err e ↔ x = .err e ∨ ∃ a, x = .ok a ∧ f a = .err e := by
  cases x <;> simp

@[simp] theorem lift_ok (a : α) : (Res.ok a : Calc α).lift = (Res.ok a : Res ε α) := rfl
@[simp] theorem lift_panic : (Res.panic : Calc α).lift = (Res.panic : Res ε α) := rfl

theorem lift_eq_ok {x : Calc α} {a : α} : (x.lift : Res ε α) = .ok a ↔ x = .ok a := by
  cases x <;> simp [lift]
  rename_i e; exact e.elim

theorem lift_eq_panic {x : Calc α} : (x.lift : Res ε α) = .panic ↔ x = .panic := by
  cases x <;> simp [lift]
  rename_i e; exact e.elim

@[simp] theorem lift_ne_err {x : Calc α} {e : ε} : (x.lift : Res ε α) ≠ .err e := by
  cases x <;> simp [lift]
  rename_i e; exact e.elim

@[simp] theorem map_ok (f : α → β) (a : α) : (Res.ok a : Res ε α).map f = .ok (f a) := rfl
@[simp] theorem map_err (f : α → β) (e : ε) : (Res.err e : Res ε α).map f = .err e := rfl
@[simp] theorem map_panic (f : α → β) : (Res.panic : Res ε α).map f = .panic := rfl

theorem map_eq_ok {x : Res ε α} {f : α → β} {b : β} :
    x.map f = .ok b ↔ ∃ a, x = .ok a ∧ f a = b := by
  cases x <;> simp [map]

theorem map_eq_panic {x : Res ε α} {f : α → β} : x.map f = .panic ↔ x = .panic := by
  cases x <;> simp [map]

theorem map_eq_err {x : Res ε α} {f : α → β} {e : ε} : x.map f = .err e ↔ x = .err e := by
  cases x <;> simp [map]

theorem mapList_eq_ok {f : α → Res ε β} {xs : List α} {ys : List β} :
    mapList f xs = .ok ys ↔ List.Forall₂ (fun x y => f x = .ok y) xs ys := by
  induction xs generalizing ys with
  | nil => cases ys <;> simp [mapList]
  | cons x xs ih =>
    cases hx : f x with
    | ok b =>
      cases hxs : mapList f xs with
      | ok bs =>
        simp only [mapList, hx, hxs]
        constructor
        · intro h; injection h with h; subst h
          exact .cons hx (ih.mp hxs)
        · intro h
          cases h with
          | cons h1 h2 =>
            rw [hx] at h1; injection h1 with h1
            rw [← ih, hxs] at h2; injection h2 with h2
            rw [h1, h2]
      | err e =>
        simp only [mapList, hx, hxs]
        constructor
        · intro h; cases h
        · intro h; cases h with | cons h1 h2 => rw [← ih, hxs] at h2; cases h2
      | panic =>
        simp only [mapList, hx, hxs]
        constructor
        · intro h; cases h
        · intro h; cases h with | cons h1 h2 => rw [← ih, hxs] at h2; cases h2
    | err e =>
      simp only [mapList, hx]
      constructor
      · intro h; cases h
      · intro h; cases h with | cons h1 h2 => rw [hx] at h1; cases h1
    | panic =>
      simp only [mapList, hx]
      constructor
      · intro h; cases h
      · intro h; cases h with | cons h1 h2 => rw [hx] at h1; cases h1

theorem mapList_ok_of {f : α → Res ε β} {g : α → β} {xs : List α}
    (h : ∀ x ∈ xs, f x = .ok (g x)) : mapList f xs = .ok (xs.map g) := by
  induction xs with
  | nil => rfl
  | cons x xs ih =>
    simp only [mapList, h x (by simp), ih (fun y hy => h y (by simp [hy])), List.map_cons]

theorem mapList_ne_panic {f : α → Res ε β} {xs : List α}
    (h : ∀ x ∈ xs, f x ≠ .panic) : mapList f xs ≠ .panic := by
  induction xs with
  | nil => simp [mapList]
  | cons x xs ih =>
    have h1 := h x (by simp)
    have h2 := ih (fun y hy => h y (by simp [hy]))
    simp only [mapList]
    split
    · split
      · simp
      · simp
      · rename_i h3; exact absurd h3 h2
    · simp
    · rename_i h3; exact absurd h3 h1

theorem mapList_length {f : α → Res ε β} {xs : List α} {ys : List β}
    (h : mapList f xs = .ok ys) : ys.length = xs.length :=
  (mapList_eq_ok.mp h).length_eq.symm

end Res

namespace BufM

theorem bind_apply (x : BufM ε α) (f : α → BufM ε β) (buf : Bytes) :
    (x >>= f) buf = match x buf with
      | (buf', .ok a) => f a buf'
      | (buf', .err e) => (buf', .err e)
      | (buf', .panic) => (buf', .panic) := rfl

theorem bind_ok {x : BufM ε α} {f : α → BufM ε β} {buf buf' : Bytes} {a : α}
    (h : x buf = (buf', .ok a)) : (x >>= f) buf = f a buf' := by
  rw [bind_apply, h]

theorem bind_err {x : BufM ε α} {f : α → BufM ε β} {buf buf' : Bytes} {e : ε}
    (h : x buf = (buf', .err e)) : (x >>= f) buf = (buf', .err e) := by
  rw [bind_apply, h]

theorem bind_panic {x : BufM ε α} {f : α → BufM ε β} {buf buf' : Bytes}
    (h : x buf = (buf', .panic)) : (x >>= f) buf = (buf', .panic) := by
  rw [bind_apply, h]

@[simp] theorem ofRes_apply (r : Res ε α) (buf : Bytes) : ofRes r buf = (buf, r) := rfl
@[simp] theorem append_apply (b : Bytes) (buf : Bytes) :
    (append b : BufM ε Unit) buf = (buf ++ b, .ok ()) := rfl
@[simp] theorem pure_apply (a : α) (buf : Bytes) : (pure a : BufM ε α) buf = (buf, .ok a) := rfl

@[simp] theorem ofRes_ok_bind (a : α) (f : α → BufM ε β) : (ofRes (.ok a) >>= f) = f a := rfl
@[simp] theorem ofRes_err_bind (e : ε) (f : α → BufM ε β) :
    (ofRes (.err e) >>= f) = ofRes (.err e) := rfl
@[simp] theorem ofRes_panic_bind (f : α → BufM ε β) :
    (ofRes (.panic) >>= f) = ofRes .panic := rfl

end BufM

/-! ## Arithmetic -/

theorem Env.add_eq_ok {E : Env} {a b : Nat} (h : a + b < usizeMod) : E.add a b = .ok (a + b) := by
  simp [Env.add, h]

theorem Env.sub_eq_ok {E : Env} {a b : Nat} (h : b ≤ a) : E.sub a b = .ok (a - b) := by
  simp [Env.sub, h]

theorem Env.mul_eq_ok {E : Env} {a b : Nat} (h : a * b < usizeMod) : E.mul a b = .ok (a * b) := by
  simp [Env.mul, h]

@[simp] theorem Env.debugAssert_true (E : Env) : E.debugAssert true = .ok () := by
  simp [Env.debugAssert]

/-! ## Slices -/

theorem slice_ok {xs : List α} {s e : Nat} (h1 : s ≤ e) (h2 : e ≤ xs.length) :
    (slice xs s e : Res ε (List α)) = .ok ((xs.drop s).take (e - s)) := by
  simp [slice, h1, h2]

theorem slice_eq_ok {xs ys : List α} {s e : Nat} :
    (slice xs s e : Res ε (List α)) = .ok ys ↔
      s ≤ e ∧ e ≤ xs.length ∧ ys = (xs.drop s).take (e - s) := by
  unfold slice
  split
  · rename_i h; simp [h, eq_comm]
  · rename_i h; simp; intro h1 h2; exact absurd ⟨h1, h2⟩ h

theorem slice_append {pre mid post : List α} {s e : Nat} (hs : s = pre.length)
    (he : e = pre.length + mid.length) :
    (slice (pre ++ mid ++ post) s e : Res ε (List α)) = .ok mid := by
  subst hs he
  rw [slice_ok (by omega) (by simp)]
  simp [List.append_assoc]

theorem getRange_append {pre mid post : List α} {s e : Nat} (hs : s = pre.length)
    (he : e = pre.length + mid.length) :
    getRange (pre ++ mid ++ post) s e = some mid := by
  subst hs he
  unfold getRange
  rw [if_pos ⟨by omega, by simp⟩]
  simp [List.append_assoc]

/-! ## Little-endian bytes -/

theorem ofNat_mod_256 (x : Nat) : BitVec.ofNat 8 (x % 256) = BitVec.ofNat 8 x := by
  apply BitVec.eq_of_toNat_eq; simp

theorem Spec.leBytes_succ (n x : Nat) :
    Spec.leBytes (n + 1) x = BitVec.ofNat 8 x :: Spec.leBytes n (x / 256) := by
  simp only [Spec.leBytes, List.range_succ_eq_map, List.map_cons, List.map_map, Nat.pow_zero,
    Nat.div_one]
  congr 1
  apply List.map_congr_left
  intro i _
  simp only [Function.comp]
  rw [Nat.div_div_eq_div_mul, Nat.pow_succ, Nat.mul_comm]

@[simp] theorem Spec.leBytes_zero (x : Nat) : Spec.leBytes 0 x = [] := rfl

@[simp] theorem Spec.leBytes_length (n x : Nat) : (Spec.leBytes n x).length = n := by
  simp [Spec.leBytes]

theorem toLeBytes_eq (n x : Nat) : toLeBytes n x = Spec.leBytes n x := by
  induction n generalizing x with
  | zero => rfl
  | succ n ih => rw [toLeBytes, Spec.leBytes_succ, ofNat_mod_256, ih]

theorem fromLeBytes_lt (bs : Bytes) : fromLeBytes bs < 256 ^ bs.length := by
  induction bs with
  | nil => simp [fromLeBytes]
  | cons b bs ih =>
    simp only [fromLeBytes, List.length_cons, Nat.pow_succ]
    have := b.isLt
    omega

theorem fromLeBytes_leBytes (n x : Nat) : fromLeBytes (Spec.leBytes n x) = x % 256 ^ n := by
  induction n generalizing x with
  | zero => simp [fromLeBytes, Nat.mod_one]
  | succ n ih =>
    rw [Spec.leBytes_succ, fromLeBytes, ih, Nat.pow_succ, Nat.mul_comm (256 ^ n)]
    rw [Nat.mod_mul]
    simp

theorem leBytes_fromLeBytes (bs : Bytes) : Spec.leBytes bs.length (fromLeBytes bs) = bs := by
  induction bs with
  | nil => rfl
  | cons b bs ih =>
    simp only [List.length_cons, Spec.leBytes_succ, fromLeBytes]
    have h := b.isLt
    have h1 : (b.toNat + 256 * fromLeBytes bs) / 256 = fromLeBytes bs := by omega
    rw [h1, ih]
    congr 1
    apply BitVec.eq_of_toNat_eq
    simp; omega

end Ssz
