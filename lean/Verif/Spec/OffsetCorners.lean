import Verif.Spec.OffsetAny
import Verif.Spec.OffsetArcs

/-! # Specification: the parallel curve of a closed polyline of lines and arcs, and offsets with clean corners -/

namespace Cavc

open Classical in
/-- The direction in which the segment from `v` to `w` runs after the fraction `u`: the direction of the chord; for an arc it is turned
back by half of the sweep at the start, and turned on by half of the sweep at the end. -/
noncomputable def segDir (v w : Vertex ℝ) (u : ℝ) : V2 ℝ :=
  if IsLine v then ⟨w.x - v.x, w.y - v.y⟩ else rotV ((2 * u - 1) * (2 * Real.arctan v.bulge)) ⟨w.x - v.x, w.y - v.y⟩

section
variable (p : Pline ℝ) (d : ℝ)

/-- A point from which one gets to the end of segment `k` on a straight line, in the direction in which the segment ends. -/
noncomputable def arriveFrom (k : Nat) : V2 ℝ :=
  ⟨(cornerPos p (k + 1)).x - (segDir (vtx p k) (vtx p (k + 1)) 1).x, (cornerPos p (k + 1)).y - (segDir (vtx p k) (vtx p (k + 1)) 1).y⟩

/-- A point to which one gets from there on a straight line, in the direction in which the next segment starts. -/
noncomputable def departTo (k : Nat) : V2 ℝ :=
  ⟨(cornerPos p (k + 1)).x + (segDir (vtx p (k + 1)) (vtx p (k + 2)) 0).x, (cornerPos p (k + 1)).y + (segDir (vtx p (k + 1)) (vtx p (k + 2)) 0).y⟩

/-- Sine of the turn at the corner after segment `k` -/
noncomputable def cornerSin (k : Nat) : ℝ := turnSin (arriveFrom p k) (cornerPos p (k + 1)) (departTo p k)

/-- Cosine of that turn -/
noncomputable def cornerCos (k : Nat) : ℝ := turnCos (arriveFrom p k) (cornerPos p (k + 1)) (departTo p k)

/-- Half of that turn, as an angle -/
noncomputable def cornerHalf (k : Nat) : ℝ := halfTurn (arriveFrom p k) (cornerPos p (k + 1)) (departTo p k)

/-- The point, after the fraction `t`, of the arc around the corner after segment `k` that links the two parallel segments. -/
noncomputable def roundArc (k : Nat) (t : ℝ) : V2 ℝ := cornerArc (arriveFrom p k) (cornerPos p (k + 1)) (departTo p k) d t

/-- The point is beside a segment, at the distance `|d|`: on the left for positive `d`, on the right for negative `d`. -/
def BesideSeg (X : V2 ℝ) : Prop := ∃ k u, 0 ≤ u ∧ u ≤ 1 ∧ X = parCurve p d k u

/-- The point is on the arc around a corner, on the outer side of the turn, with that side being the one of `d`. -/
def AroundVertex (X : V2 ℝ) : Prop := ∃ k t, d * cornerSin p k < 0 ∧ 0 ≤ t ∧ t ≤ 1 ∧ X = roundArc p d k t

/-- The exact parallel curve: the points at the distance `|d|` beside a segment or around a corner, with no point of the polyline
nearer than that. -/
structure ParallelPt (X : V2 ℝ) : Prop where
  keeps : Keeps p |d| X
  place : BesideSeg p d X ∨ AroundVertex p d X

/-- No point is on the parallel curves on both sides. -/
def OneSidedCurve : Prop := ∀ X, ¬ (ParallelPt p d X ∧ ParallelPt p (-d) X)

/-- No point of segment `k` is nearer than `r`. -/
def FarSeg (r : ℝ) (X : V2 ℝ) (k : Nat) : Prop := ∀ q, OnSeg (vtx p k) (vtx p (k + 1)) q → r ≤ edist X q

/-- What happens at the corner after segment `k` is in accordance with the distances.

* On the outer side of the turn the parallel segments are linked by the arc around the corner, which is not so flat that it counts as a line.
* On the inner side (or if there is no turn) they are cut, and what is cut off is too near to the polyline.
* Or they are linked on the inner side, and all of the link is too near to the polyline. -/
inductive CleanCorner (k : Nat) : Corner → Prop
  | round (side : d * cornerSin p k < 0) (bent : 1 / 100000000 ≤ |Real.tan (cornerHalf p k / 2)|) : CleanCorner k (.link (Real.tan (cornerHalf p k / 2)))
  | cut (t u : ℝ) (side : 0 ≤ d * cornerSin p k)
      (stop : ∀ s, t < s → s ≤ 1 → ¬ Keeps p |d| (parCurve p d k s))
      (start : ∀ s, 0 ≤ s → s < u → ¬ Keeps p |d| (parCurve p d (k + 1) s)) : CleanCorner k (.cut t u)
  | lost (b : ℝ) (side : 0 ≤ d * cornerSin p k)
      (near : ∀ X, OnSeg (Vertex.ofV2 (parCurve p d k 1) b) (Vertex.ofV2 (parCurve p d (k + 1) 0) 0) X → ¬ Keeps p |d| X) : CleanCorner k (.link b)

/-- All corners are like this. -/
def CleanCorners (c : Nat → Corner) : Prop := ∀ k < p.verts.length, CleanCorner p d k (c k)

/-- Just before a cut, the parallel of the one segment keeps the distance from the other segment; and the polyline does not turn back
at a corner. -/
structure FreeCuts (c : Nat → Corner) : Prop where
  before : ∀ k < p.verts.length, ∀ t u, c k = .cut t u → ∃ δ > 0, ∀ s, t - δ < s → s ≤ t → FarSeg p |d| (parCurve p d k s) (k + 1)
  after : ∀ k < p.verts.length, ∀ t u, c k = .cut t u → ∃ δ > 0, ∀ s, u ≤ s → s < u + δ → FarSeg p |d| (parCurve p d (k + 1) s) k
  turn : ∀ k < p.verts.length, cornerSin p k = 0 → 0 < cornerCos p k

end

/-- The two passes of a crossing have different directions. -/
def CrossAtAngle (R : Pline ℝ) (E : List (Cut × Cut)) : Prop := ∀ e ∈ E, ∀ a b a' b' : ℝ,
  HasDerivAt (fun t => (curveAt R e.1.1 t).x) a e.1.2 → HasDerivAt (fun t => (curveAt R e.1.1 t).y) b e.1.2 →
  HasDerivAt (fun t => (curveAt R e.2.1 t).x) a' e.2.2 → HasDerivAt (fun t => (curveAt R e.2.1 t).y) b' e.2.2 → a * b' - b * a' ≠ 0

end Cavc
