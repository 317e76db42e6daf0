import Verif.Spec.OffsetOpenCross
import Verif.Spec.OffsetSelf

/-! # Specification: how the raw offset of a closed polyline is crossed at its cuts -/

namespace Cavc

/-- What crosses the closed polyline `R` at the cut `a`: another pass of `R`, or a pass of `D`; one of these only, and at an angle. -/
inductive LoopCutKind (R D : Pline ℝ) (C : List Cut) (a : Cut) : Prop
  | self (b : Cut) (mem : b ∈ C) (other : b.1 ≠ a.1) (same : curveAt R b.1 b.2 = curveAt R a.1 a.2)
      (only : ∀ b' ∈ C, curveAt R b'.1 b'.2 = curveAt R a.1 a.2 → b' = a ∨ b' = b) (angle : AtAngle (curveAt R a.1) a.2 (curveAt R b.1) b.2)
      (dual : ¬ OnPline D (curveAt R a.1 a.2))
  | dual (j : Nat) (u : ℝ) (range : j < D.verts.length) (inside : 0 ≤ u ∧ u ≤ 1) (same : curveAt D j u = curveAt R a.1 a.2)
      (only : ∀ j' u', j' < D.verts.length → 0 ≤ u' → u' ≤ 1 → curveAt D j' u' = curveAt R a.1 a.2 → j' = j)
      (angle : AtAngle (curveAt R a.1) a.2 (curveAt D j) u) (self : ∀ b ∈ C, curveAt R b.1 b.2 = curveAt R a.1 a.2 → b = a)

end Cavc
