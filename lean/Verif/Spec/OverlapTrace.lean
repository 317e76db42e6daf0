import Verif.Spec.Crossing
import Verif.Spec.Overlap

/-! # Specification: overlaps that are parts of the second polyline -/

namespace Cavc

/-- The overlap `b` follows the overlap `a` along `p2`: on the same segment, or on the next one from its start. -/
def OverlapIntr.Follows (p2 : Pline ℝ) (T U : OverlapIntr ℝ → ℝ) (a b : OverlapIntr ℝ) : Prop :=
  (b.startIndex2 = a.startIndex2 ∧ T b = U a) ∨ (b.startIndex2 = (a.startIndex2 + 1) % p2.verts.length ∧ U a = 1 ∧ T b = 0)

/-- Every overlap `o` is the part between the fractions `T o` and `U o` of a segment of `p2`; different overlaps share
no more than an end, and two of them are taken to meet only if one follows the other. -/
structure CleanOverlaps (p2 : Pline ℝ) (eps : ℝ) (T U : OverlapIntr ℝ → ℝ) (l : List (OverlapIntr ℝ)) : Prop where
  fractions : ∀ o ∈ l, 0 ≤ T o ∧ T o < U o ∧ U o ≤ 1
  start : ∀ o ∈ l, o.point1 = curveAt p2 o.startIndex2 (T o)
  stop : ∀ o ∈ l, o.point2 = curveAt p2 o.startIndex2 (U o)
  apart : ∀ o ∈ l, o.point1.fuzzyEqEps o.point2 eps = false
  clean : ∀ o ∈ l, CleanCut (vtx p2 o.startIndex2) (vtx p2 (o.startIndex2 + 1)) (T o) eps ∧
    CleanCut (vtx p2 o.startIndex2) (vtx p2 (o.startIndex2 + 1)) (U o) eps
  long : ∀ o ∈ l, LongPart (vtx p2 o.startIndex2) (T o) 1 ∧ LongPart (vtx p2 o.startIndex2) 0 (U o) ∧
    ∀ o' ∈ l, o'.startIndex2 = o.startIndex2 → T o < U o' → LongPart (vtx p2 o.startIndex2) (T o) (U o')
  disjoint : ∀ o ∈ l, ∀ o' ∈ l, o ≠ o' → o.startIndex2 = o'.startIndex2 → U o ≤ T o' ∨ U o' ≤ T o
  meets : ∀ o ∈ l, ∀ o' ∈ l, OverlapIntr.Meets eps o o' → OverlapIntr.Follows p2 T U o o'

/-- An overlap that begins inside an arc of `p2` does not continue another overlap. -/
def ArcsFromStart (p2 : Pline ℝ) (eps : ℝ) (T : OverlapIntr ℝ → ℝ) (l : List (OverlapIntr ℝ)) : Prop :=
  ∀ o ∈ l, ¬ IsLine (vtx p2 o.startIndex2) → T o ≠ 0 → ∀ o' ∈ l, ¬ OverlapIntr.Meets eps o' o

/-- The point is on the part of `p2` that an overlap covers. -/
def OnOverlap (p2 : Pline ℝ) (T U : OverlapIntr ℝ → ℝ) (o : OverlapIntr ℝ) (pt : V2 ℝ) : Prop :=
  ∃ x, T o ≤ x ∧ x ≤ U o ∧ pt = curveAt p2 o.startIndex2 x

end Cavc
