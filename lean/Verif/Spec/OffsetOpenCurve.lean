import Verif.Spec.OffsetCorners
import Verif.Spec.OffsetOpenRaw

/-! # Specification: the parallel curve of an open polyline of lines and arcs

As for closed polylines, but there is no segment from the last vertex to the first one, and the curve does not go around the ends. -/

namespace Cavc

section
variable (p : Pline ℝ) (d : ℝ)

/-- The point is beside a segment of the open polyline, at the distance `|d|`: on the left for positive `d`, on the right for
negative `d`. -/
def BesidePath (X : V2 ℝ) : Prop := ∃ k u, k + 1 < p.verts.length ∧ 0 ≤ u ∧ u ≤ 1 ∧ X = parCurve p d k u

/-- The point is on the arc around a vertex that is not an end, on the outer side of the turn, with that side being the one of `d`. -/
def AroundInner (X : V2 ℝ) : Prop := ∃ k t, k + 2 < p.verts.length ∧ d * cornerSin p k < 0 ∧ 0 ≤ t ∧ t ≤ 1 ∧ X = roundArc p d k t

/-- The exact parallel curve of an open polyline: the points at the distance `|d|` beside a segment or around an inner vertex, with no
point of the polyline nearer than that. -/
structure ParallelPathPt (X : V2 ℝ) : Prop where
  keeps : Keeps p |d| X
  place : BesidePath p d X ∨ AroundInner p d X

/-- What happens at the corners is in accordance with the distances. -/
def CleanPath (c : Nat → Corner) : Prop := ∀ k, k + 2 < p.verts.length → CleanCorner p d k (c k)

end

end Cavc
