import Verif.Proofs.Summary
import Verif.Props.Prove
import Verif.Props.Verify

/-!
# Roots in place of parts

C75: a type where `Node` stands in place of some parts, as in a block header the root of the body
stands in place of the body, has the same hash tree root as the whole, for the value with the roots
of these parts; paths in it have the same generalized indices, and the proofs are the same.
-/

namespace Ssz

open Spec

/-- C75: what is put in place of a part is its `hash_tree_root`. -/
theorem C75_part_partial (E : Env) (t : Ty) (v : t.Val) (hl : Legal t) (hb : Bounded t) (hv : Valid t v)
    (hm : InMemory t v) : (t.impl E).hashTreeRoot v = .ok (summary E.sha256 (.root t) v) :=
  htr_ok E t v hl hb hv hm

/-- C75, `hash_tree_root`: a value and the value with roots in place of parts have the same root. -/
theorem C75_root_partial (E : Env) {t t' : Ty} (r : Summary t t') (ha : Apart r) (v : t.Val)
    (hl : Legal t) (hb : Bounded t) (hb' : Bounded t') (hv : Valid t v) (hm : InMemory t v) :
    ∃ n, (t.impl E).hashTreeRoot v = .ok n ∧
      (t'.impl E).hashTreeRoot (summary E.sha256 r v) = .ok n :=
  ⟨_, htr_ok E t v hl hb hv hm, by
    rw [htr_ok E t' _ (summary_legal r hl) hb' (summary_valid _ r v hv)
      (summary_inMemory _ r ha v hm), (cut_summary _ r ha v).root]⟩

/-- C75, generalized indices: a path in the type with roots in place of parts has the index that it
has in the whole, or none. -/
theorem C75_index_partial (E : Env) {t t' : Ty} (r : Summary t t') (ha : Apart r) (hs : Shallow t)
    (path : List PathElement) (g : Nat) (h : generalizedIndex (t'.impl E) path = .ok g) :
    generalizedIndex (t.impl E) path = .ok g := by
  obtain ⟨i, w', h1, h2, _⟩ := gi_valid E h
  obtain ⟨w, _, _, h3⟩ := summary_walk r ha h1
  rw [C34_outcome_partial E t' path i w' (countable_of_shallow (summary_shallow r ha hs)) h1 h2] at h
  rw [C34_outcome_partial E t path i w (countable_of_shallow hs) h3 (by rw [summary_bits r ha h1, h2])]
  exact h

/-- C75, proofs: what the prover returns for the value with roots in place of parts it returns for
the whole as well. -/
theorem C75_proof_partial (E : Env) {t t' : Ty} (r : Summary t t') (ha : Apart r) (v : t.Val)
    (path : List PathElement) (hl : Legal t) (hb : Bounded t) (hs : Shallow t) (hv : Valid t v)
    (hm : InMemory t v) (hf : FlatOn t path) (hd : path = [] → SameDepth t) (hac : Active t v path)
    (hfit : E.debug = false → ∀ i w, walkBy prims t path = some (i, w) → i < 2 ^ 64)
    (p : Proof) (n : Node)
    (h : prove E (t'.impl E) (summary E.sha256 r v) path = .ok (p, n)) :
    prove E (t.impl E) v path = .ok (p, n) := by
  obtain ⟨g, pr, h1, h2, rfl, rfl⟩ := prove_eq_ok.1 h
  have hfit' : E.debug = false → ∀ i w, walkBy prims t' path = some (i, w) → i < 2 ^ 64 := by
    intro hE i w' hw
    obtain ⟨w, _, _, h3⟩ := summary_walk r ha hw
    exact hfit hE i w h3
  have hc := cut_summary E.sha256 r ha v
  rcases prove_on E (summary_legal r hl) (summary_bounded r ha hs hb) (summary_shallow r ha hs)
    (summary_valid _ r v hv) (summary_inMemory _ r ha v hm) (summary_flatOn r ha path hf)
    (fun hp => summary_depth r ha (hd hp)) (summary_active _ r v path hac) hfit' h1 with
    ⟨_, h3⟩ | ⟨u, h3, h4⟩
  · rw [h] at h3; cases h3
  · obtain ⟨w, h5, h6⟩ := hc.sub h3
    have hg := C75_index_partial E r ha hs path g h1
    rcases prove_on E hl hb hs hv hm hf hd hac hfit hg with ⟨h7, _⟩ | ⟨u', h7, h8⟩
    · rw [h5] at h7; cases h7
    · rw [h5] at h7
      cases h7
      rw [h8, ← h, h4, h6.root, hc.root, hc.branch h3]

namespace Headers

/-- `struct Body { graffiti: Node, votes: List<u64, 4> }` -/
def body : Ty := .container (.cons "graffiti" .node (.cons "votes" (.list (.uint .u64) 4) .nil))

/-- `struct Block { slot: u64, body: Body }` -/
def block : Ty := .container (.cons "slot" (.uint .u64) (.cons "body" body .nil))

/-- `struct Header { slot: u64, body: Node }` -/
def header : Ty := .container (.cons "slot" (.uint .u64) (.cons "body" .node .nil))

/-- The root of the body in place of the body. -/
def step : Summary block header := .container (.cons "slot" (.same _) (.cons "body" (.root body) .nil))

def val : block.Val := (7#64, (zeroNode, ([1, 2] : List (BitVec 64)), ()), ())

theorem step_apart : Apart step := ⟨trivial, trivial, trivial⟩

theorem val_ok : Legal block ∧ Bounded block ∧ Bounded header ∧ Shallow block ∧ Valid block val ∧
    InMemory block val := by
  refine ⟨⟨by decide, by decide, trivial, ⟨by decide, by decide, trivial, trivial, trivial⟩, trivial⟩,
    ⟨⟨trivial, ⟨⟨trivial, ⟨trivial, fun _ => by decide, by decide⟩, trivial⟩, by decide⟩, trivial⟩,
      by decide⟩, ⟨⟨trivial, trivial, trivial⟩, by decide⟩,
    ⟨by decide, trivial, ⟨by decide, trivial, ⟨by decide, trivial⟩, trivial⟩, trivial⟩,
    ⟨trivial, ⟨trivial, ⟨show 2 ≤ 4 by decide, fun _ _ => trivial⟩, trivial⟩, trivial⟩,
    ⟨trivial, ⟨trivial, ⟨⟨show 2 < 2 ^ 58 by decide, fun _ => show 2 * 8 < 2 ^ 63 by decide⟩,
      fun _ _ => trivial⟩, trivial⟩, trivial⟩⟩

/-- The hypotheses of C75 hold, and the prover returns a proof for the root of the body. -/
example : Apart step ∧ Legal block ∧ Bounded block ∧ Bounded header ∧ Shallow block ∧ Valid block val ∧
    InMemory block val ∧ FlatOn block [.field "body"] ∧ Active block val [.field "body"] ∧
    walkBy prims block [.field "body"] = some (3, body) ∧
    ∀ E : Env, (generalizedIndex (header.impl E) [.field "body"] = .ok 3 ∧
      ∃ p n, prove E (header.impl E) (summary E.sha256 step val) [.field "body"] = .ok (p, n)) := by
  obtain ⟨hl, hb, hb', hs, hv, hm⟩ := val_ok
  have hw : walkBy prims block [.field "body"] = some (3, body) := by
    have : depthFor (countF (.cons "slot" (.uint .u64) (.cons "body" body .nil))) = 1 := by
      decide +kernel
    show some (gcat (2 ^ depthFor (countF (.cons "slot" (.uint .u64) (.cons "body" body .nil))) + 1) 1,
      body) = _
    rw [this]
    rfl
  have hw' : walkBy prims header [.field "body"] = some (3, .node) := by
    have : depthFor (countF (.cons "slot" (.uint .u64) (.cons "body" .node .nil))) = 1 := by
      decide +kernel
    show some (gcat (2 ^ depthFor (countF (.cons "slot" (.uint .u64) (.cons "body" .node .nil))) + 1) 1,
      Ty.node) = _
    rw [this]
    rfl
  refine ⟨step_apart, hl, hb, hb', hs, hv, hm, trivial, trivial, hw, fun E => ?_⟩
  have hg := (C34_exact_partial E header [.field "body"] 3 .node hw').2
    (countable_of_shallow (summary_shallow step step_apart hs)) (by decide) (by decide +kernel)
  refine ⟨hg, ?_⟩
  rcases prove_on E (summary_legal step hl) hb' (summary_shallow step step_apart hs)
    (summary_valid E.sha256 step val hv) (summary_inMemory E.sha256 step step_apart val hm)
    (path := [.field "body"]) trivial (fun h => nomatch h) trivial
    (fun _ i w h => by rw [hw'] at h; cases h; decide) hg with ⟨h1, _⟩ | ⟨_, _, h2⟩
  · have : depthFor (countF (.cons "slot" (.uint .u64) (.cons "body" .node .nil))) = 1 := by
      decide +kernel
    exfalso
    revert h1
    show (full (depthFor (countF (.cons "slot" (.uint .u64) (.cons "body" .node .nil)))) _).sub 3 ≠ none
    rw [this]
    show (MTree.node _ _).sub 3 ≠ none
    rw [node_sub_right]
    exact fun h => nomatch h
  · exact ⟨_, _, h2⟩

/-- `Vector<[List<u8, 1>; 3], 2>` -/
def triples : Ty := .vector (.array (.list (.uint .u8) 1) 3) 2

/-- `Vector<[Node; 3], 2>` -/
def roots : Ty := .vector (.array .node 3) 2

/-- The roots in place of the lists. -/
def inside : Summary triples roots := .vector (.array (.root _) 3) 2

def empty : triples.Val :=
  ([⟨[[], [], []], rfl⟩, ⟨[[], [], []], rfl⟩] : List (Ty.array (.list (.uint .u8) 1) 3).Val)

end Headers

/-- C75 is false where arrays of parts become arrays of roots that are elements of a collection, since
the implementation packs these: the roots in `Vector<[List<u8, 1>; 3], 2>` and `Vector<[Node; 3], 2>`
are different, although the specification gives the same root. -/
theorem C75_arrays_refuted : ∃ (t t' : Ty) (r : Summary t t') (v : t.Val), Legal t ∧ Bounded t ∧
    Bounded t' ∧ Shallow t ∧ Valid t v ∧ InMemory t v ∧ ∀ E : Env, E.sha256 = Sha256.sha256 →
      htr E.sha256 t' (summary E.sha256 r v) = htr E.sha256 t v ∧
      (t'.impl E).hashTreeRoot (summary E.sha256 r v) ≠ (t.impl E).hashTreeRoot v := by
  have hb : Bounded Headers.triples ∧ Bounded Headers.roots :=
    ⟨⟨⟨⟨trivial, fun _ => by decide, by decide⟩, fun h => nomatch h⟩, fun h => nomatch h⟩,
      ⟨⟨trivial, fun _ => by decide⟩, fun _ => by decide⟩⟩
  have hl : Legal Headers.triples := ⟨by decide, by decide, trivial⟩
  have hin : ∀ x ∈ (show List (Ty.array (.list (.uint .u8) 1) 3).Val from Headers.empty),
      ∀ l ∈ x.1, l = ([] : List (BitVec 8)) := by
    intro x hx l hl
    have hx : x = ⟨[[], [], []], rfl⟩ := by
      rcases List.mem_cons.1 hx with h | h
      · exact h
      · exact List.mem_singleton.1 h
    subst hx
    rcases List.mem_cons.1 hl with h | h
    · exact h
    · rcases List.mem_cons.1 h with h | h
      · exact h
      · exact List.mem_singleton.1 h
  have hv : Valid Headers.triples Headers.empty := by
    refine ⟨rfl, fun x hx l hl => ?_⟩
    rw [hin x hx l hl]
    exact ⟨Nat.zero_le _, fun _ h => nomatch h⟩
  have hm : InMemory Headers.triples Headers.empty := by
    refine ⟨⟨show 2 < 2 ^ 58 by decide, fun h => nomatch h⟩, fun x hx =>
      ⟨⟨by rw [x.2]; decide, fun h => nomatch h⟩, fun l hl => ?_⟩⟩
    rw [hin x hx l hl]
    exact ⟨⟨show 0 < 2 ^ 58 by decide, fun _ => show 0 * 1 < 2 ^ 63 by decide⟩, fun _ h => nomatch h⟩
  refine ⟨Headers.triples, Headers.roots, Headers.inside, Headers.empty, hl, hb.1, hb.2,
    ⟨by decide, by decide, by decide, trivial⟩, hv, hm, fun E hE => ⟨?_, ?_⟩⟩
  · rw [hE]
    decide +kernel
  · have hm' : InMemory Headers.roots (summary E.sha256 Headers.inside Headers.empty) :=
      ⟨⟨show 2 < 2 ^ 58 by decide, fun _ => show 2 * 96 < 2 ^ 63 by decide⟩, fun x _ =>
        ⟨⟨by rw [x.2]; decide, fun _ => by rw [x.2]; decide⟩, fun _ _ => trivial⟩⟩
    rw [htr_ok E Headers.triples _ hl hb.1 hv hm, htr_ok E Headers.roots _
      (summary_legal Headers.inside hl) hb.2 (summary_valid _ _ _ hv) hm', hE]
    intro h
    rw [Res.ok.injEq] at h
    revert h
    decide +kernel

end Ssz
