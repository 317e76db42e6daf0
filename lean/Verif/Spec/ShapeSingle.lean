import Verif.Spec.OffsetAny
import Verif.Spec.OffsetCorners

/-! # Specification: a polyline whose single offset is clear of all tolerances -/

namespace Cavc

/-- The conditions of C66 on one closed polyline and a distance: the raw offset has corners that are clear of the tolerances, crosses itself at angles, its crossings are found, and
the tests of the code decide correctly. -/
def ClearlyOffset (p : Pline ℝ) (d eps joinEps tol : ℝ) : Prop :=
  ∃ (c : Nat → Corner) (gap : ℝ) (E : List (Cut × Cut)), ClearOffset p d c eps ∧ CleanCorners p d c ∧ FreeCuts p d c ∧
    SelfCrossing (rawWith p d c) eps gap E ∧ CrossAtAngle (rawWith p d c) E ∧ FindsSelf (rawWith p d c) eps ∧
    ClearTests p (rawWith p d c) d eps tol E ∧ ReadableTests p (rawWith p d c) eps E ∧ eps ≤ gap ∧ 2 * joinEps ≤ gap

end Cavc
