import Verif.Spec.ShapeOffset
import Verif.Spec.OffsetOpenCross

/-! # Specification: how the offset loops of a shape cross at their cuts -/

namespace Cavc

/-- At their common points the offset loops cross at an angle, and only two of them at a time. -/
structure ShapeCross (loops : List (OffsetLoop ℝ)) (C : Nat → List Cut) : Prop where
  angle : ∀ (i j : Nat) (l m : OffsetLoop ℝ), loops[i]? = some l → loops[j]? = some m → i ≠ j → ∀ c ∈ C i, ∀ c' ∈ C j,
    curveAt l.ip.pline c.1 c.2 = curveAt m.ip.pline c'.1 c'.2 → AtAngle (curveAt l.ip.pline c.1) c.2 (curveAt m.ip.pline c'.1) c'.2
  pair : ∀ (i j k : Nat) (l m n : OffsetLoop ℝ), loops[i]? = some l → loops[j]? = some m → loops[k]? = some n → i ≠ j → i ≠ k → j ≠ k →
    ∀ X, OnPline l.ip.pline X → OnPline m.ip.pline X → ¬ OnPline n.ip.pline X

end Cavc
