import Verif.Spec.Shape
import Verif.Spec.OffsetSelf

/-! # Specification: the parallel offset of a shape as a set of points -/

namespace Cavc

/-- The point is at least `r` away from all input polylines other than number `parent`. -/
def KeepsOthers (inputs : List (IndexedPline ℝ)) (r : ℝ) (parent : Nat) (X : V2 ℝ) : Prop :=
  ∀ (j : Nat) (ip : IndexedPline ℝ), inputs[j]? = some ip → j ≠ parent → Keeps ip.pline r X

/-- The cuts of the offset loops: `C i` lists the places of loop number `i` that it has in common with other loops, each once.
All cuts are inside segments, clear of the ends of the segments; their points are equal or further than `gap` apart.  No loop is
cut exactly once. -/
structure ShapeCuts (loops : List (OffsetLoop ℝ)) (eps gap : ℝ) (C : Nat → List Cut) : Prop where
  on : ∀ (i : Nat) (l : OffsetLoop ℝ), loops[i]? = some l → ∀ c ∈ C i, ∃ (j : Nat) (m : OffsetLoop ℝ), j ≠ i ∧ loops[j]? = some m ∧
    OnPline m.ip.pline (curveAt l.ip.pline c.1 c.2)
  all : ∀ (i : Nat) (l : OffsetLoop ℝ), loops[i]? = some l → ∀ (j : Nat) (m : OffsetLoop ℝ), loops[j]? = some m → j ≠ i →
    ∀ k t, k < l.ip.pline.verts.length → 0 ≤ t → t ≤ 1 → OnPline m.ip.pline (curveAt l.ip.pline k t) → (k, t) ∈ C i
  nodup : ∀ i, (C i).Nodup
  range : ∀ (i : Nat) (l : OffsetLoop ℝ), loops[i]? = some l → ∀ c ∈ C i, c.1 < l.ip.pline.verts.length
  ok : ∀ (i : Nat) (l : OffsetLoop ℝ), loops[i]? = some l → ∀ c ∈ C i, CutOk l.ip.pline eps c
  apart : ∀ (i : Nat) (l : OffsetLoop ℝ), loops[i]? = some l → ∀ c ∈ C i, ∀ (j : Nat) (m : OffsetLoop ℝ), loops[j]? = some m → ∀ c' ∈ C j,
    curveAt l.ip.pline c.1 c.2 = curveAt m.ip.pline c'.1 c'.2 ∨ FarApart gap (curveAt l.ip.pline c.1 c.2) (curveAt m.ip.pline c'.1 c'.2)
  long : ∀ (i : Nat) (l : OffsetLoop ℝ), loops[i]? = some l → ∀ c ∈ C i, ∀ c' ∈ C i, c.1 = c'.1 → c.2 < c'.2 →
    LongPart (vtx l.ip.pline c.1) c.2 c'.2
  several : ∀ i, ∀ c ∈ C i, ∃ c' ∈ C i, c' ≠ c

/-- The common points of the segments of different loops are reported exactly. -/
def ShapeFinds (loops : List (OffsetLoop ℝ)) (eps : ℝ) : Prop :=
  ∀ (i : Nat) (l : OffsetLoop ℝ), loops[i]? = some l → ∀ (j : Nat) (m : OffsetLoop ℝ), loops[j]? = some m → i < j → FindsPairs l.ip.pline m.ip.pline eps

/-- The tests of the code on the parts of the offset loops decide correctly: in the middle of a part of a segment that begins with a
cut, or in the middle of the first segment if the loop has no cuts, the distance from every other input polyline is kept or clearly not
kept, and the ends of arcs are not confused. -/
structure ShapeTests (inputs : List (IndexedPline ℝ)) (loops : List (OffsetLoop ℝ)) (r eps tol : ℝ) (C : Nat → List Cut) : Prop where
  whole : ∀ (i : Nat) (l : OffsetLoop ℝ), loops[i]? = some l → C i = [] → ∀ (j : Nat) (ip : IndexedPline ℝ), inputs[j]? = some ip → j ≠ l.parent →
    Readable ip.pline eps (curveAt l.ip.pline 0 (1 / 2)) ∧ Decided ip.pline r tol (curveAt l.ip.pline 0 (1 / 2))
  middle : ∀ (i : Nat) (l : OffsetLoop ℝ), loops[i]? = some l → ∀ k lo hi, SelfStretch l.ip.pline (C i) k lo hi → (k, lo) ∈ C i →
    ∀ (j : Nat) (ip : IndexedPline ℝ), inputs[j]? = some ip → j ≠ l.parent →
      Readable ip.pline eps (curveAt l.ip.pline k ((lo + hi) / 2)) ∧ Decided ip.pline r tol (curveAt l.ip.pline k ((lo + hi) / 2))

/-- The point of a cut of one of the loops -/
noncomputable def passPt (loops : List (OffsetLoop ℝ)) (x : Nat × Cut) : V2 ℝ :=
  match loops[x.1]? with
  | some l => curveAt l.ip.pline x.2.1 x.2.2
  | none => ⟨0, 0⟩

/-- All cuts of all loops, with the number of the loop -/
def passes (loops : List (OffsetLoop ℝ)) (C : Nat → List Cut) : List (Nat × Cut) := (List.range loops.length).flatMap fun i => (C i).map fun c => (i, c)

/-- Just after the cut (`σ = 1`), or just before it (`σ = -1`), the loop keeps the distance from the other inputs. -/
def PassKept (inputs : List (IndexedPline ℝ)) (loops : List (OffsetLoop ℝ)) (r σ : ℝ) (x : Nat × Cut) : Prop :=
  ∃ l, loops[x.1]? = some l ∧ ∃ δ > 0, ∀ s, 0 < s → s < δ → KeepsOthers inputs r l.parent (curveAt l.ip.pline x.2.1 (x.2.2 + σ * s))

open Classical in
/-- Along the offset loops, the distance from the other inputs is given up and regained only at the cuts.  At the point of a cut at which
the distance is kept, it is kept for a while along at least one of the ways that arrive or leave there; and as many of the ways that
arrive keep the distance as of those that leave. -/
structure ShapeChanges (inputs : List (IndexedPline ℝ)) (loops : List (OffsetLoop ℝ)) (r : ℝ) (C : Nat → List Cut) : Prop where
  steady : ∀ (i : Nat) (l : OffsetLoop ℝ), loops[i]? = some l → ∀ k t, k < l.ip.pline.verts.length → 0 ≤ t → t ≤ 1 → (k, t) ∉ C i →
    KeepsOthers inputs r l.parent (curveAt l.ip.pline k t) →
    ∃ δ > 0, ∀ t', 0 ≤ t' → t' ≤ 1 → |t' - t| < δ → KeepsOthers inputs r l.parent (curveAt l.ip.pline k t')
  leave : ∀ (i : Nat) (l : OffsetLoop ℝ), loops[i]? = some l → ∀ c ∈ C i, KeepsOthers inputs r l.parent (curveAt l.ip.pline c.1 c.2) →
    ∃ x ∈ passes loops C, passPt loops x = curveAt l.ip.pline c.1 c.2 ∧ (PassKept inputs loops r 1 x ∨ PassKept inputs loops r (-1) x)
  balance : ∀ X, ((passes loops C).filter fun x => decide (passPt loops x = X ∧ PassKept inputs loops r 1 x)).length =
    ((passes loops C).filter fun x => decide (passPt loops x = X ∧ PassKept inputs loops r (-1) x)).length

end Cavc
