import Verif.Model.Seg

/-!
# Default-epsilon wrappers

The remaining small public numeric helpers of `core` (paths relative to `cavalier_contours/src`).
-/

namespace Cavc
open Scalar
variable {T : Type} [Scalar T]

/-- `angle_is_between`, `core/math/base_math.rs:131-136`. -/
def angleIsBetween (test start «end» : T) : Bool := angleIsBetweenEps test start «end» fuzzyEps

/-- `is_left_or_coincident`, `core/math/base_math.rs:371-376`. -/
def isLeftOrCoincident (p0 p1 point : V2 T) : Bool := isLeftOrCoincidentEps p0 p1 point fuzzyEps

/-- `is_right_or_coincident`, `core/math/base_math.rs:403-408`. -/
def isRightOrCoincident (p0 p1 point : V2 T) : Bool := isRightOrCoincidentEps p0 p1 point fuzzyEps

/-- `FuzzyOrd::fuzzy_in_range`, `core/traits/fuzzy_ord.rs:39-42`. -/
def Scalar.fuzzyInRange (a lo hi : T) : Bool := fuzzyInRangeEps a lo hi fuzzyEps

end Cavc
