import Verif.Proofs.Wire

/-!
# Types that are encoded alike

C72: a type may be changed, anywhere inside, in the bounds of lists and bitlists, in the names of
fields, by newtypes put around or taken away, by `Vector` in place of an array, and by an enum of
nothing and one payload in place of an `Option` or the other way round; what was written with the
old type is read with the new one, with the same contents.
-/

namespace Ssz

open Spec

/-- C72, `serialize`: a value within the bounds of both types is written as the same bytes, or not
at all, with both. -/
theorem C72_written (E : Env) {t t' : Ty} (r : Wire t t') (v : t.Val) (hl : Legal t) (hf : Fits t)
    (hl' : Legal t') (hf' : Fits t') (hv : Valid t v) (hv' : Valid t' (conv r v)) (b : Bytes) :
    serialize (t'.impl E).toSerializable (conv r v) = .ok b ↔
      serialize (t.impl E).toSerializable v = .ok b := by
  constructor
  · intro h
    obtain ⟨rfl, hs⟩ := serialize_ok_enc E t' _ hl' hf' hv' h
    rw [enc_conv r v]
    exact serialize_enc E t v hl hf hv ((small_conv r v).mp hs)
  · intro h
    obtain ⟨rfl, hs⟩ := serialize_ok_enc E t _ hl hf hv h
    rw [← enc_conv r v]
    exact serialize_enc E t' _ hl' hf' hv' ((small_conv r v).mpr hs)

/-- C72, `deserialize`: an input is read as a value with one type exactly if it is read as its
counterpart with the other, for values within the bounds of both. -/
theorem C72_read (E : Env) {t t' : Ty} (r : Wire t t') (b : Bytes) (v : t.Val) (hl : Legal t)
    (hf : Fits t) (hl' : Legal t') (hf' : Fits t') (hb : b.length < 2 ^ 63) (hv : Valid t v)
    (hv' : Valid t' (conv r v)) :
    (t'.impl E).deserialize b = .ok (conv r v) ↔ (t.impl E).deserialize b = .ok v := by
  rw [de_iff E t' b _ hl' hf' hb, de_iff E t b v hl hf hb]
  exact accepts_conv r b v hv hv'

/-- C72: if no bound gets smaller, everything that is read with the old type is read with the new
one, as the same contents. -/
theorem C72_raised (E : Env) {t t' : Ty} (r : Wire t t') (hr : Raises r) (b : Bytes) (v : t.Val)
    (hl : Legal t) (hf : Fits t) (hl' : Legal t') (hf' : Fits t') (hb : b.length < 2 ^ 63)
    (h : (t.impl E).deserialize b = .ok v) : (t'.impl E).deserialize b = .ok (conv r v) :=
  have hv := (de_sound E t b v hl hf (by omega) h).1
  (C72_read E r b v hl hf hl' hf' hb hv (valid_conv r hr v hv)).mpr h

/-- C72: written with the old type, read with the new one, as the contents of an equal value. -/
theorem C72_upgrade (E : Env) {t t' : Ty} (r : Wire t t') (hr : Raises r) (b : Bytes) (v : t.Val)
    (hl : Legal t) (hf : Fits t) (hl' : Legal t') (hf' : Fits t') (hb : b.length < 2 ^ 63)
    (hv : Valid t v) (h : serialize (t.impl E).toSerializable v = .ok b) :
    ∃ w, norm t w = norm t v ∧ (t'.impl E).deserialize b = .ok (conv r w) := by
  obtain ⟨rfl, hs⟩ := serialize_ok_enc E t v hl hf hv h
  exact ⟨norm t v, norm_norm t v,
    C72_raised E r hr _ _ hl hf hl' hf' hb (de_enc E t v hl hf hv hs)⟩

namespace Wired

/-- `struct A { a: List<u8, 20>, b: Option<u16> }` -/
def old : Ty := .container (.cons "a" (.list (.uint .u8) 20) (.cons "b" (.option (.uint .u16)) .nil))

/-- `enum E { None, Some(u16) }`, `struct B { x: N(List<u8, 30>), b: E }` -/
def new : Ty := .container (.cons "x" (.newtype (.list (.uint .u8) 30))
  (.cons "b" (.union (.unit (.data (.uint .u16) .nil))) .nil))

def step : Wire old new :=
  .container (.cons "a" "x" (.wrap (.list (.same _) 20 30)) (.cons "b" "b" (.optionUnion (.same _)) .nil))

def val : old.Val := (([1, 2, 3] : List (BitVec 8)), (some 7#16 : Option (BitVec 16)), ())

theorem step_raises : Raises step := ⟨⟨by decide, trivial⟩, trivial, trivial⟩

theorem step_trees : SameTrees step :=
  ⟨⟨rfl, by decide +kernel, trivial⟩, trivial, trivial⟩

theorem val_valid : Valid old val :=
  ⟨⟨by decide, fun _ _ => trivial⟩, fun _ _ => trivial, trivial⟩

end Wired

example : Legal Wired.old ∧ Fits Wired.old ∧ Legal Wired.new ∧ Fits Wired.new ∧ Bounded Wired.old ∧
    Bounded Wired.new ∧ Raises Wired.step ∧ SameTrees Wired.step ∧ Valid Wired.old Wired.val ∧
    Valid Wired.new (conv Wired.step Wired.val) ∧ InMemory Wired.old Wired.val :=
  ⟨⟨by decide, by decide, trivial, trivial, trivial⟩, ⟨⟨trivial, trivial, trivial⟩, by decide⟩,
    ⟨by decide, by decide, trivial, ⟨⟨rfl, by decide, by decide⟩, trivial, trivial⟩, trivial⟩,
    ⟨⟨trivial, ⟨trivial, trivial⟩, trivial⟩, by decide⟩,
    ⟨⟨⟨trivial, fun _ => by decide, by decide⟩, trivial, trivial⟩, by decide⟩,
    ⟨⟨⟨trivial, fun _ => by decide, by decide⟩, ⟨trivial, trivial⟩, trivial⟩, by decide⟩,
    Wired.step_raises, Wired.step_trees, Wired.val_valid,
    valid_conv _ Wired.step_raises _ Wired.val_valid,
    ⟨⟨by decide, fun _ => by decide⟩, fun _ _ => trivial⟩, fun _ _ => trivial, trivial⟩

/-- C72, `hash_tree_root`: if besides the depths of the trees stay as they are, and elements that
were packed are packed and others not, the root stays as well. -/
theorem C72_root (E : Env) {t t' : Ty} (r : Wire t t') (hs : SameTrees r) (v : t.Val)
    (hl : Legal t) (hb : Bounded t) (hl' : Legal t') (hb' : Bounded t') (hv : Valid t v)
    (hv' : Valid t' (conv r v)) (hm : InMemory t v) :
    ∃ n, (t.impl E).hashTreeRoot v = .ok n ∧ (t'.impl E).hashTreeRoot (conv r v) = .ok n :=
  ⟨_, htr_ok E t v hl hb hv hm, by
    rw [htr_ok E t' _ hl' hb' hv' (inMemory_conv r hs v hm), tree_conv r hs v]⟩

end Ssz
