import Verif.Spec.Curve

/-! # Specification of the winding number

The number of turns of a curve about a point, by following the direction from the point to the curve
with a continuous angle. -/

namespace Cavc

/-- The vector `(x, y)` is not zero and points in the direction of the angle `θ`. -/
def Dir (θ x y : ℝ) : Prop := ∃ ρ : ℝ, 0 < ρ ∧ x = ρ * Real.cos θ ∧ y = ρ * Real.sin θ

/-- `θ` is a continuous angle of the direction from `pt` to the curve `γ` over `[a, b]`. -/
def FollowsAngle (γ : ℝ → V2 ℝ) (pt : V2 ℝ) (a b : ℝ) (θ : ℝ → ℝ) : Prop :=
  ContinuousOn θ (Set.Icc a b) ∧ ∀ t ∈ Set.Icc a b, Dir (θ t) ((γ t).x - pt.x) ((γ t).y - pt.y)

/-- The whole curve of a polyline, segment `i` over the interval `[i, i + 1]`; after the last segment
of a closed polyline it is back at the first vertex. -/
noncomputable def plineCurve (p : Pline ℝ) (t : ℝ) : V2 ℝ :=
  match p.segs[⌊t⌋₊]? with
  | some s => segCurve s.1 s.2 (t - ⌊t⌋₊)
  | none => (p.verts.head?.map Vertex.pos).getD ⟨0, 0⟩

end Cavc
