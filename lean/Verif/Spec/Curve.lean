import Verif.Spec.RealScalar

/-! # Specification of the curve of a segment

Written from the documentation of the format (`polyline/pline_vertex.rs:5-14`): a vertex with bulge
`b` starts a segment that is a straight line for zero bulge and otherwise the circular arc to the
next vertex with signed sweep angle `4 atan b` (counter clockwise for positive `b`).  The code treats
a bulge of magnitude below `1e-8` as zero, and so does the specification. -/

namespace Cavc

/-- Rotation of a vector. -/
noncomputable def rotV (θ : ℝ) (v : V2 ℝ) : V2 ℝ :=
  ⟨v.x * Real.cos θ - v.y * Real.sin θ, v.x * Real.sin θ + v.y * Real.cos θ⟩

/-- Euclidean distance of two points. -/
noncomputable def edist (p q : V2 ℝ) : ℝ := Real.sqrt ((p.x - q.x) ^ 2 + (p.y - q.y) ^ 2)

/-- Center of the circle of the arc from `p` to `q` with bulge `b`. -/
noncomputable def arcCenter (p q : V2 ℝ) (b : ℝ) : V2 ℝ :=
  ⟨(p.x + q.x) / 2 - (1 - b ^ 2) / (4 * b) * (q.y - p.y),
   (p.y + q.y) / 2 + (1 - b ^ 2) / (4 * b) * (q.x - p.x)⟩

/-- Radius of the arc. -/
noncomputable def arcRadius (p q : V2 ℝ) (b : ℝ) : ℝ := edist p q * (1 + b ^ 2) / (4 * |b|)

/-- The point of the arc after the fraction `t` of the sweep: the start rotated about the center by
`t` times `4 atan b`. -/
noncomputable def arcPoint (p q : V2 ℝ) (b t : ℝ) : V2 ℝ :=
  let c := arcCenter p q b
  let r := rotV (t * (4 * Real.arctan b)) ⟨p.x - c.x, p.y - c.y⟩
  ⟨c.x + r.x, c.y + r.y⟩

/-- The point of the straight segment at the fraction `t`. -/
noncomputable def linePoint (p q : V2 ℝ) (t : ℝ) : V2 ℝ :=
  ⟨p.x + t * (q.x - p.x), p.y + t * (q.y - p.y)⟩

/-- A vertex starts a line segment. -/
def IsLine (v : Vertex ℝ) : Prop := |v.bulge| < 1 / 100000000

open Classical in
/-- The curve of the segment from `v1` to `v2`, parametrised by `[0, 1]`. -/
noncomputable def segCurve (v1 v2 : Vertex ℝ) (t : ℝ) : V2 ℝ :=
  if IsLine v1 then linePoint ⟨v1.x, v1.y⟩ ⟨v2.x, v2.y⟩ t
  else arcPoint ⟨v1.x, v1.y⟩ ⟨v2.x, v2.y⟩ v1.bulge t

/-- The point lies on the segment. -/
def OnSeg (v1 v2 : Vertex ℝ) (pt : V2 ℝ) : Prop := ∃ t, 0 ≤ t ∧ t ≤ 1 ∧ pt = segCurve v1 v2 t

/-- The point lies on the polyline. -/
def OnPline (p : Pline ℝ) (pt : V2 ℝ) : Prop := ∃ s ∈ p.segs, OnSeg s.1 s.2 pt

end Cavc
