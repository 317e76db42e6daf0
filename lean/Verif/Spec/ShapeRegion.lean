import Verif.Spec.ShapeOffset
import Verif.Spec.Region
import Mathlib.Analysis.Calculus.Deriv.Basic

/-! # Specification: the region enclosed by the parallel offset of a shape -/

namespace Cavc

/-- The closed polyline goes around its inside counterclockwise, `σ = 1`, or clockwise, `σ = -1`: off the polyline the winding number is 0 or `σ`. -/
def TurnsLike (p : Pline ℝ) (σ : ℤ) : Prop := (σ = 1 ∨ σ = -1) ∧ ∀ X, ¬ OnPline p X → p.windingNumber X = 0 ∨ p.windingNumber X = σ

/-- At the fraction `t` of its segment `k` the polyline `l` runs beside `p`, at the distance `|d|`: at right angles to the direction to a point `F` of
`p`, with that point on its right for positive `d` and on its left for negative `d`. -/
def RunsBeside (p : Pline ℝ) (d : ℝ) (l : Pline ℝ) (k : Nat) (t : ℝ) : Prop :=
  ∃ (F : V2 ℝ) (a b m : ℝ), OnPline p F ∧ edist (curveAt l k t) F = |d| ∧
    HasDerivAt (fun s => (curveAt l k s).x) a t ∧ HasDerivAt (fun s => (curveAt l k s).y) b t ∧
    0 < m ∧ (curveAt l k t).x - F.x = -(m * d * b) ∧ (curveAt l k t).y - F.y = m * d * a

/-- The polylines `ls` are the parallel curve of the closed polyline `p`, which turns like `σ`: together they consist of the points that are exactly
`|d|` away from `p` and on the left of `p` for positive `d`, on the right for negative `d`; and they run beside `p` in the direction of `p`. -/
structure Alongside (p : Pline ℝ) (d : ℝ) (σ : ℤ) (ls : List (Pline ℝ)) : Prop where
  points : ∀ X, (∃ l ∈ ls, OnPline l X) ↔
    Keeps p |d| X ∧ (∃ F, OnPline p F ∧ edist X F = |d|) ∧ p.windingNumber X = if 0 < d * σ then σ else 0
  along : ∀ l ∈ ls, ∀ k t, k < l.verts.length → 0 < t → t < 1 → RunsBeside p d l k t

/-- the offset loops that come from the polyline number `j` of the shape -/
def loopsOf (loops : List (OffsetLoop ℝ)) (j : Nat) : List (Pline ℝ) := (loops.filter fun l => l.parent == j).map fun l => l.ip.pline

/-- the sum of the winding numbers of all polylines of a shape -/
def Shape.windingNumber {T : Type} [Scalar T] (s : Shape T) (X : V2 T) : ℤ := (s.loops.map fun ip => ip.pline.windingNumber X).sum

end Cavc
