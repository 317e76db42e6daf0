import Verif.Spec.OffsetOpenCurve

/-! # Specification: how the raw offset of an open polyline is crossed at its cuts -/

namespace Cavc

/-- Just before a cut at a corner, the parallel of the one segment keeps the distance from the other segment; and the open polyline
does not turn back at a corner. -/
structure FreePath (p : Pline ℝ) (d : ℝ) (c : Nat → Corner) : Prop where
  before : ∀ k, k + 2 < p.verts.length → ∀ t u, c k = .cut t u → ∃ δ > 0, ∀ s, t - δ < s → s ≤ t → FarSeg p |d| (parCurve p d k s) (k + 1)
  after : ∀ k, k + 2 < p.verts.length → ∀ t u, c k = .cut t u → ∃ δ > 0, ∀ s, u ≤ s → s < u + δ → FarSeg p |d| (parCurve p d (k + 1) s) k
  turn : ∀ k, k + 2 < p.verts.length → cornerSin p k = 0 → 0 < cornerCos p k

/-- The start of `R` does not have the distance `r` from the last vertex of `p`, and the end of `R` does not have it from the first one. -/
structure EndsFree (p R : Pline ℝ) (r : ℝ) : Prop where
  start : ∀ v, p.verts.getLast? = some v → edist (curveAt R 0 0) v.pos ≠ r
  stop : ∀ v, p.verts.head? = some v → edist (curveAt R (R.verts.length - 2) 1) v.pos ≠ r

/-- The curve `f` at `t` and the curve `g` at `u` have different directions. -/
def AtAngle (f : ℝ → V2 ℝ) (t : ℝ) (g : ℝ → V2 ℝ) (u : ℝ) : Prop := ∀ a b a' b' : ℝ,
  HasDerivAt (fun s => (f s).x) a t → HasDerivAt (fun s => (f s).y) b t → HasDerivAt (fun s => (g s).x) a' u → HasDerivAt (fun s => (g s).y) b' u →
    a * b' - b * a' ≠ 0

/-- The curve `f` at `t` is not at a right angle to the direction from the point `v`: it crosses the circle around `v`. -/
def AcrossCircle (f : ℝ → V2 ℝ) (t : ℝ) (v : V2 ℝ) : Prop := ∀ a b : ℝ,
  HasDerivAt (fun s => (f s).x) a t → HasDerivAt (fun s => (f s).y) b t → a * ((f t).x - v.x) + b * ((f t).y - v.y) ≠ 0

/-- What crosses `R` at the cut `a`: another pass of `R`, or a pass of `D`, or the circle around the first or the last vertex of `p`;
one of these only, and at an angle. -/
inductive CutKind (p R D : Pline ℝ) (r : ℝ) (C : List Cut) (a : Cut) : Prop
  | self (b : Cut) (mem : b ∈ C) (other : b.1 ≠ a.1) (same : curveAt R b.1 b.2 = curveAt R a.1 a.2)
      (only : ∀ b' ∈ C, curveAt R b'.1 b'.2 = curveAt R a.1 a.2 → b' = a ∨ b' = b) (angle : AtAngle (curveAt R a.1) a.2 (curveAt R b.1) b.2)
      (dual : ¬ OnPline D (curveAt R a.1 a.2)) (circle : ∀ v, IsEnd p v → edist (curveAt R a.1 a.2) v.pos ≠ r)
  | dual (j : Nat) (u : ℝ) (range : j + 1 < D.verts.length) (inside : 0 ≤ u ∧ u ≤ 1) (same : curveAt D j u = curveAt R a.1 a.2)
      (only : ∀ j' u', j' + 1 < D.verts.length → 0 ≤ u' → u' ≤ 1 → curveAt D j' u' = curveAt R a.1 a.2 → j' = j)
      (angle : AtAngle (curveAt R a.1) a.2 (curveAt D j) u) (self : ∀ b ∈ C, curveAt R b.1 b.2 = curveAt R a.1 a.2 → b = a)
      (circle : ∀ v, IsEnd p v → edist (curveAt R a.1 a.2) v.pos ≠ r)
  | circle (v : Vertex ℝ) (mem : IsEnd p v) (at_ : edist (curveAt R a.1 a.2) v.pos = r)
      (only : ∀ w, IsEnd p w → edist (curveAt R a.1 a.2) w.pos = r → w.pos = v.pos) (angle : AcrossCircle (curveAt R a.1) a.2 v.pos)
      (self : ∀ b ∈ C, curveAt R b.1 b.2 = curveAt R a.1 a.2 → b = a) (dual : ¬ OnPline D (curveAt R a.1 a.2))

end Cavc
