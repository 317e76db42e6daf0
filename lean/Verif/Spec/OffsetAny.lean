import Verif.Spec.OffsetTests

/-! # Specification: offsets of closed polylines of lines and arcs, against any raw offset -/

namespace Cavc

/-- The tests of the code at a point `X` do not confuse the ends of the arcs of `p`: `X` is further than `eps` from their
centers, and exactly on the line from the center to an end of the arc or not so near to it that a cross product is below `eps`. -/
def Readable (p : Pline ℝ) (eps : ℝ) (X : V2 ℝ) : Prop :=
  ∀ s ∈ p.segs, ¬ IsLine s.1 → ∀ c, c = arcCenter s.1.pos s.2.pos s.1.bulge →
    (eps ≤ |X.x - c.x| ∨ eps ≤ |X.y - c.y|) ∧
    ∀ e, e = s.1.pos ∨ e = s.2.pos →
      (e.x - c.x) * (X.y - c.y) - (e.y - c.y) * (X.x - c.x) = 0 ∨ eps ≤ |(e.x - c.x) * (X.y - c.y) - (e.y - c.y) * (X.x - c.x)|

/-- This holds for the points at which the code tests the parts of `R`: their ends and their middle. -/
def ReadableTests (p R : Pline ℝ) (eps : ℝ) (E : List (Cut × Cut)) : Prop :=
  ∀ i lo hi, Stretch R E i lo hi → Readable p eps (curveAt R i lo) ∧ Readable p eps (curveAt R i ((lo + hi) / 2)) ∧ Readable p eps (curveAt R i hi)

/-- Along `R`, the distance `r` from `p` is given up and regained only at the crossings `E`; and if it is kept at the point of a
crossing, then it is kept for a while along at least one of the four ways that leave this point. -/
structure ChangesAtCrossings (p R : Pline ℝ) (r : ℝ) (E : List (Cut × Cut)) : Prop where
  steady : ∀ i t, i < R.verts.length → 0 ≤ t → t ≤ 1 → (i, t) ∉ bothCuts E → Keeps p r (curveAt R i t) →
    ∃ δ > 0, ∀ t', 0 ≤ t' → t' ≤ 1 → |t' - t| < δ → Keeps p r (curveAt R i t')
  leave : ∀ c ∈ bothCuts E, Keeps p r (curveAt R c.1 c.2) → ∃ c' ∈ bothCuts E, curveAt R c'.1 c'.2 = curveAt R c.1 c.2 ∧
    ∃ σ : ℝ, (σ = 1 ∨ σ = -1) ∧ ∃ δ > 0, ∀ s, 0 < s → s < δ → Keeps p r (curveAt R c'.1 (c'.2 + σ * s))

end Cavc
