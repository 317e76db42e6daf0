import Verif.Spec.Region
import Verif.Spec.Crossing
import Mathlib.MeasureTheory.Constructions.BorelSpace.Basic
import Mathlib.MeasureTheory.Measure.Lebesgue.Basic

/-! # Specification: the area of a region of the plane -/

namespace Cavc
open MeasureTheory

/-- The points of the plane that a polyline winds around. -/
def within (p : Pline ℝ) : Set (ℝ × ℝ) := {z | p.windingNumber ⟨z.1, z.2⟩ ≠ 0}

/-- The area (Lebesgue measure) of a region of the plane. -/
noncomputable def planeArea (S : Set (ℝ × ℝ)) : ℝ := volume.real S

end Cavc
