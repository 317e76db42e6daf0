import Verif.Spec.ShapeSingle
import Verif.Spec.ShapeCross
import Verif.Spec.ShapeOffset
import Verif.Spec.ShapeRegion
import Verif.Spec.Simple

/-! # Specification: a shape whose offset is clear of all tolerances -/

namespace Cavc

/-- The conditions of C72 on the offset of a shape: the single offset of each polyline is clear of the tolerances, the offset loops cross at angles, two at a time, and clear of the tolerances. -/
structure ClearShape (env : Env ℝ) (s : Shape ℝ) (d : ℝ) (o : ShapeOffsetOptions ℝ) : Prop where
  singles : ∀ ip ∈ s.loops, ClearlyOffset ip.pline d o.posEqualEps o.sliceJoinEps o.offsetDistEps
  cross : ∃ (ccw cw : List (OffsetLoop ℝ)) (gap : ℝ) (C : Nat → List Cut), ShapeLoops env s d o ccw cw ∧ ShapeCuts (ccw ++ cw) o.posEqualEps gap C ∧
    ShapeFinds (ccw ++ cw) o.posEqualEps ∧ ShapeCross (ccw ++ cw) C ∧ ShapeTests s.loops (ccw ++ cw) |d| o.posEqualEps o.offsetDistEps C ∧
    o.posEqualEps ≤ gap ∧ 2 * o.sliceJoinEps ≤ gap

/-- What a shape has to be like for its offsets to be exact: closed polylines of lines and arcs that touch neither themselves nor each other, sorted by orientation, whose winding numbers add up to
`a` or `a + 1` off them. -/
structure SoundShape (s : Shape ℝ) (a : ℤ) : Prop where
  serves : ∀ ip ∈ s.loops, ip.index.Serves ip.pline
  loop : ∀ ip ∈ s.loops, Loop ip.pline
  simple : ∀ ip ∈ s.loops, SimpleLoop ip.pline
  apart : ∀ (i j : Nat) (ip jp : IndexedPline ℝ), s.loops[i]? = some ip → s.loops[j]? = some jp → i ≠ j → ∀ X, OnPline ip.pline X → ¬ OnPline jp.pline X
  two : ∀ X, (∀ ip ∈ s.loops, ¬ OnPline ip.pline X) → s.windingNumber X = a ∨ s.windingNumber X = a + 1
  left : ∀ ip ∈ s.ccw, ip.pline.orientation = .counterClockwise
  right : ∀ ip ∈ s.cw, ip.pline.orientation = .clockwise

end Cavc
