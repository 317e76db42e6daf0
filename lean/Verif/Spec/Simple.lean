import Verif.Spec.SubPath
import Mathlib.Data.Real.Basic

/-! # Specification: closed polylines that do not touch themselves -/

namespace Cavc

/-- The closed polyline passes every one of its points just once: its segments, each without its end, have no common points, and
none passes a point twice. -/
def SimpleLoop (p : Pline ℝ) : Prop :=
  ∀ i j, i < p.verts.length → j < p.verts.length → ∀ t u : ℝ, 0 ≤ t → t < 1 → 0 ≤ u → u < 1 → curveAt p i t = curveAt p j u → i = j ∧ t = u

end Cavc
