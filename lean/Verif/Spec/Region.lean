import Verif.Spec.Curve

/-! # Closed polylines as curves in the plane -/

namespace Cavc

/-- A closed polyline of lines and of arcs of at most half a circle: the curves whose turns are counted. -/
structure Loop (p : Pline ℝ) : Prop where
  closed : p.closed = true
  two : 2 ≤ p.verts.length
  segs : ∀ s ∈ p.segs, IsLine s.1 ∨ (¬ IsLine s.1 ∧ |s.1.bulge| ≤ 1 ∧ s.1.pos ≠ s.2.pos)

/-- The points of a polyline, in the plane with its topology. -/
def trace (p : Pline ℝ) : Set (ℝ × ℝ) := {z | OnPline p ⟨z.1, z.2⟩}

end Cavc
