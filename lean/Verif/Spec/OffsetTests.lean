import Verif.Spec.OffsetStraight
import Verif.Spec.SelfCrossing
import Verif.Spec.Offset

/-! # Specification: when the tests of the offset code decide correctly -/

namespace Cavc

/-- No point belongs to the parallel curves of both sides. -/
def OneSided (p : Pline ℝ) (d : ℝ) : Prop := ∀ X, ¬ (OffsetPt p d X ∧ OffsetPt p (-d) X)

/-- A part of segment `i`, from one fraction to another, with cuts or vertexes at its ends and no cut inside. -/
structure Stretch (R : Pline ℝ) (E : List (Cut × Cut)) (i : Nat) (lo hi : ℝ) : Prop where
  range : i < R.verts.length
  zero : 0 ≤ lo
  lt : lo < hi
  one : hi ≤ 1
  start : lo = 0 ∨ (i, lo) ∈ bothCuts E
  stop : hi = 1 ∨ (i, hi) ∈ bothCuts E
  inside : ∀ t, lo < t → t < hi → (i, t) ∉ bothCuts E

/-- The point has at least the distance `r` from the polyline, or clearly less than that. -/
def Decided (p : Pline ℝ) (r tol : ℝ) (X : V2 ℝ) : Prop :=
  Keeps p r X ∨ ∃ q, OnPline p q ∧ edist X q ^ 2 + 2 / 100000000 ≤ (r - tol) ^ 2

/-- The tests of the code on parts of the raw offset `R` decide correctly: in the middle of a part that begins with a cut, or at
the first vertex if there are no cuts, the distance is kept or clearly not kept; and for a
part that keeps the distance no intersect with a segment of the input is reported. -/
structure ClearTests (p R : Pline ℝ) (d eps tol : ℝ) (E : List (Cut × Cut)) : Prop where
  whole : E = [] → Decided p |d| tol (curveAt R 0 0)
  middle : ∀ i lo hi, Stretch R E i lo hi → (i, lo) ∈ bothCuts E → Decided p |d| tol (curveAt R i ((lo + hi) / 2))
  clear : ∀ i lo hi x y, Stretch R E i lo hi → (∀ t, lo ≤ t → t ≤ hi → Keeps p |d| (curveAt R i t)) →
    FullSeg x y eps → (∀ s, segCurve x y s = curveAt R i (lo + (hi - lo) * s)) → SegClear p eps x y

end Cavc
