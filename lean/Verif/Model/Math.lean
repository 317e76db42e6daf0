import Verif.Model.Scalar

/-!
# Core math

Models `cavalier_contours/src/core/math/{vector2,base_math,line_line_intersect,
line_circle_intersect,circle_circle_intersect}.rs`.  `debug_assert!`s are not modelled.
-/

namespace Cavc
open Scalar

/-- `Vector2`, `core/math/vector2.rs:5-8`. -/
structure V2 (T : Type) where
  x : T
  y : T
deriving DecidableEq, Repr

variable {T : Type} [Scalar T]

namespace V2

/-- Vector addition, `core/math/vector2.rs` (`ops::Add`, componentwise). -/
instance : Add (V2 T) := ⟨fun a b => ⟨a.x + b.x, a.y + b.y⟩⟩
/-- Vector subtraction, `core/math/vector2.rs` (`ops::Sub`, componentwise). -/
instance : Sub (V2 T) := ⟨fun a b => ⟨a.x - b.x, a.y - b.y⟩⟩
/-- Vector negation, `core/math/vector2.rs` (`ops::Neg`, componentwise). -/
instance : Neg (V2 T) := ⟨fun a => ⟨-a.x, -a.y⟩⟩

/-- `Vector2::scale`, `core/math/vector2.rs:37-39`. -/
def scale (a : V2 T) (k : T) : V2 T := ⟨k * a.x, k * a.y⟩
/-- `Vector2::dot`, `core/math/vector2.rs:43-45`. -/
def dot (a b : V2 T) : T := a.x * b.x + a.y * b.y
/-- `Vector2::perp_dot`, `core/math/vector2.rs:49-51`. -/
def perpDot (a b : V2 T) : T := a.x * b.y - a.y * b.x
/-- `Vector2::length_squared`, `core/math/vector2.rs:55-57`. -/
def lengthSquared (a : V2 T) : T := a.dot a
/-- `Vector2::length`, `core/math/vector2.rs:61-63`. -/
def length (a : V2 T) : T := Scalar.sqrt (a.dot a)
/-- `Vector2::normalize`, `core/math/vector2.rs:67-69`. -/
def normalize (a : V2 T) : V2 T := a.scale (1 / a.length)
/-- `Vector2::fuzzy_eq_eps`, `core/math/vector2.rs:73-75`. -/
def fuzzyEqEps (a b : V2 T) (eps : T) : Bool :=
  Scalar.fuzzyEqEps a.x b.x eps && Scalar.fuzzyEqEps a.y b.y eps
/-- `Vector2::fuzzy_eq`, `core/math/vector2.rs:79-81`. -/
def fuzzyEq (a b : V2 T) : Bool := a.fuzzyEqEps b Scalar.fuzzyEps
/-- `Vector2::perp`, `core/math/vector2.rs:85-87`. -/
def perp (a : V2 T) : V2 T := ⟨-a.y, a.x⟩
/-- `Vector2::unit_perp`, `core/math/vector2.rs:91-93`. -/
def unitPerp (a : V2 T) : V2 T := a.perp.normalize
/-- `Vector2::rotate_about`, `core/math/vector2.rs:97-111`. -/
def rotateAbout (a origin : V2 T) (ang : T) : V2 T :=
  let tr := a - origin
  let s := Scalar.sin ang
  let c := Scalar.cos ang
  let r : V2 T := ⟨tr.x * c - tr.y * s, tr.x * s + tr.y * c⟩
  r + origin

end V2

/-- `min_max`, `core/math/base_math.rs:15-20`. -/
def minMax (a b : T) : T × T := if lt a b then (a, b) else (b, a)

/-- `normalize_radians`, `core/math/base_math.rs:39-48`. -/
def normalizeRadians (a : T) : T :=
  if ge a 0 && le a tau then a else a - floor (a / tau) * tau

/-- `delta_angle`, `core/math/base_math.rs:70-80`. -/
def deltaAngle (a1 a2 : T) : T :=
  let diff := normalizeRadians (a2 - a1)
  if gt diff pi then diff - tau else diff

/-- `delta_angle_signed`, `core/math/base_math.rs:90-96`. -/
def deltaAngleSigned (a1 a2 : T) (negative : Bool) : T :=
  let diff := deltaAngle a1 a2
  if negative then -(Scalar.abs diff) else Scalar.abs diff

/-- `angle_is_between_eps`, `core/math/base_math.rs:116-124`. -/
def angleIsBetweenEps (test start «end» eps : T) : Bool :=
  let endSweep := normalizeRadians («end» - start)
  let midSweep := normalizeRadians (test - start)
  lt midSweep (endSweep + eps)

/-- `angle_is_within_sweep_eps`, `core/math/base_math.rs:143-158`. -/
def angleIsWithinSweepEps (test start sweep eps : T) : Bool :=
  let «end» := start + sweep
  if lt sweep 0 then angleIsBetweenEps test «end» start eps
  else angleIsBetweenEps test start «end» eps

/-- `angle_is_within_sweep`, `core/math/base_math.rs:165-170`. -/
def angleIsWithinSweep (test start sweep : T) : Bool :=
  angleIsWithinSweepEps test start sweep fuzzyEps

/-- `quadratic_solutions`, `core/math/base_math.rs:180-203`. -/
def quadraticSolutions (a b c sqrtDiscr : T) : T × T :=
  let denom := two * a
  let sol1 := if lt b 0 then (-b + sqrtDiscr) / denom else (-b - sqrtDiscr) / denom
  (sol1, (c / a) / sol1)

/-- `dist_squared`, `core/math/base_math.rs:207-213`. -/
def distSquared (p0 p1 : V2 T) : T := (p0 - p1).dot (p0 - p1)

/-- `angle`, `core/math/base_math.rs:217-222`. -/
def angle (p0 p1 : V2 T) : T := atan2 (p1.y - p0.y) (p1.x - p0.x)

/-- `midpoint`, `core/math/base_math.rs:226-231`. -/
def midpoint (p0 p1 : V2 T) : V2 T := ⟨(p0.x + p1.x) / two, (p0.y + p1.y) / two⟩

/-- `point_on_circle`, `core/math/base_math.rs:235-241`. -/
def pointOnCircle (radius : T) (center : V2 T) (ang : T) : V2 T :=
  ⟨center.x + radius * cos ang, center.y + radius * sin ang⟩

/-- `point_from_parametric`, `core/math/base_math.rs:245-250`. -/
def pointFromParametric (p0 p1 : V2 T) (t : T) : V2 T := p0 + (p1 - p0).scale t

/-- `parametric_from_point`, `core/math/base_math.rs:257-281`
(the epsilon argument is only used by the `debug_assert!`). -/
def parametricFromPoint (p0 p1 point : V2 T) : T :=
  let xDiff := p1.x - p0.x
  let yDiff := p1.y - p0.y
  if lt (abs xDiff) (abs yDiff) then (point.y - p0.y) / yDiff else (point.x - p0.x) / xDiff

/-- `line_seg_closest_point`, `core/math/base_math.rs:285-305`. -/
def lineSegClosestPoint (p0 p1 point : V2 T) : V2 T :=
  let v := p1 - p0
  let w := point - p0
  let c1 := w.dot v
  if lt c1 fuzzyEps then p0
  else
    let c2 := v.lengthSquared
    if lt c2 (c1 + fuzzyEps) then p1
    else p0 + v.scale (c1 / c2)

/-- `perp_dot_test_value`, `core/math/base_math.rs:309-314`. -/
def perpDotTestValue (p0 p1 point : V2 T) : T :=
  (p1.x - p0.x) * (point.y - p0.y) - (p1.y - p0.y) * (point.x - p0.x)

/-- `is_left`, `core/math/base_math.rs:330-335`. -/
def isLeft (p0 p1 point : V2 T) : Bool := gt (perpDotTestValue p0 p1 point) 0
/-- `is_left_or_equal`, `core/math/base_math.rs:339-344`. -/
def isLeftOrEqual (p0 p1 point : V2 T) : Bool := ge (perpDotTestValue p0 p1 point) 0
/-- `is_left_or_coincident_eps`, `core/math/base_math.rs:353-364`. -/
def isLeftOrCoincidentEps (p0 p1 point : V2 T) (eps : T) : Bool :=
  gt (perpDotTestValue p0 p1 point) (-eps)
/-- `is_right_or_coincident_eps`, `core/math/base_math.rs:385-396`. -/
def isRightOrCoincidentEps (p0 p1 point : V2 T) (eps : T) : Bool :=
  lt (perpDotTestValue p0 p1 point) eps

/-- `point_within_arc_sweep`, `core/math/base_math.rs:437-455`. -/
def pointWithinArcSweep (center arcStart arcEnd : V2 T) (isClockwise : Bool) (point : V2 T)
    (eps : T) : Bool :=
  if isClockwise then
    isRightOrCoincidentEps center arcStart point eps && isLeftOrCoincidentEps center arcEnd point eps
  else
    isLeftOrCoincidentEps center arcStart point eps && isRightOrCoincidentEps center arcEnd point eps

/-- `bulge_from_angle`, `core/math/base_math.rs:462-467`. -/
def bulgeFromAngle (a : T) : T := tan (a / four)
/-- `angle_from_bulge`, `core/math/base_math.rs:474-479`. -/
def angleFromBulge (b : T) : T := four * atan b

/-- `LineLineIntr`, `core/math/line_line_intersect.rs:6-33`. -/
inductive LineLineIntr (T : Type) where
  | noIntersect
  | trueIntersect (seg1T seg2T : T)
  | overlapping (seg2T0 seg2T1 : T)
  | falseIntersect (seg1T seg2T : T)
deriving DecidableEq, Repr

/-- `line_line_intr`, `core/math/line_line_intersect.rs:90-228`. -/
def lineLineIntr (v1 v2 u1 u2 : V2 T) (eps : T) : LineLineIntr T :=
  let v := v2 - v1
  let u := u2 - u1
  let vPdotU := v.perpDot u
  let w := v1 - u1
  let seg1Length := (v2 - v1).length
  let seg2Length := (u2 - u1).length
  if !fuzzyEqZeroEps vPdotU eps then
    let seg1T := u.perpDot w / vPdotU
    let seg2T := v.perpDot w / vPdotU
    if !fuzzyInRangeEps (seg1T * seg1Length) 0 seg1Length eps
        || !fuzzyInRangeEps (seg2T * seg2Length) 0 seg2Length eps then
      .falseIntersect seg1T seg2T
    else
      .trueIntersect seg1T seg2T
  else
    let vPdotW := v.perpDot w
    let uPdotW := u.perpDot w
    if !fuzzyEqZeroEps vPdotW eps || !fuzzyEqZeroEps uPdotW eps then .noIntersect
    else
      let vIsPoint := v1.fuzzyEqEps v2 eps
      let uIsPoint := u1.fuzzyEqEps u2 eps
      if vIsPoint && uIsPoint then
        if v1.fuzzyEqEps u1 eps then .trueIntersect 0 0 else .noIntersect
      else if vIsPoint then
        let seg2T := parametricFromPoint u1 u2 v1
        if fuzzyInRangeEps (seg2T * seg2Length) 0 seg2Length eps then .trueIntersect 0 seg2T
        else .noIntersect
      else if uIsPoint then
        let seg1T := parametricFromPoint v1 v2 u1
        if fuzzyInRangeEps (seg1T * seg1Length) 0 seg1Length eps then .trueIntersect seg1T 0
        else .noIntersect
      else
        let w2 := v2 - u1
        let ts : T × T :=
          if fuzzyEqZeroEps u.x eps then (w.y / u.y, w2.y / u.y) else (w.x / u.x, w2.x / u.x)
        let ts : T × T := if gt ts.1 ts.2 then (ts.2, ts.1) else ts
        if !fuzzyLtEps (ts.1 * seg2Length) seg2Length eps
            || !fuzzyGtEps (ts.2 * seg2Length) 0 eps then .noIntersect
        else
          let seg2T0 := Scalar.max ts.1 0
          let seg2T1 := Scalar.min ts.2 1
          if fuzzyEqZeroEps ((seg2T1 - seg2T0) * seg2Length) eps then
            let seg1T := if v1.fuzzyEqEps u1 eps || v1.fuzzyEqEps u2 eps then (0 : T) else 1
            .trueIntersect seg1T seg2T0
          else
            .overlapping seg2T0 seg2T1

/-- `LineCircleIntr`, `core/math/line_circle_intersect.rs:8-26`. -/
inductive LineCircleIntr (T : Type) where
  | noIntersect
  | tangentIntersect (t0 : T)
  | twoIntersects (t0 t1 : T)
deriving DecidableEq, Repr

/-- `line_circle_intr`, `core/math/line_circle_intersect.rs:57-162`. -/
def lineCircleIntr (p0 p1 : V2 T) (radius : T) (circleCenter : V2 T) (eps : T) :
    LineCircleIntr T :=
  let dx := p1.x - p0.x
  let dy := p1.y - p0.y
  let h := circleCenter.x
  let k := circleCenter.y
  if p0.fuzzyEqEps p1 eps then
    let xh := (p0.x + p1.x) / two - h
    let yk := (p0.y + p1.y) / two - k
    if fuzzyEqEps (xh * xh + yk * yk) (radius * radius) eps then .tangentIntersect 0
    else .noIntersect
  else
    let p0s := p0 - circleCenter
    let p1s := p1 - circleCenter
    let abc : T × T × T :=
      if fuzzyEqZero dx then
        let xPos := (p1s.x + p0s.x) / two
        (1, 0, -xPos)
      else
        let m := dy / dx
        (m, -1, p1s.y - m * p1s.x)
    let a := abc.1
    let b := abc.2.1
    let c := abc.2.2
    let a2 := a * a
    let b2 := b * b
    let c2 := c * c
    let r2 := radius * radius
    let a2b2 := a2 + b2
    let shortestDist := abs c / sqrt a2b2
    if gt shortestDist (radius + eps) then .noIntersect
    else
      let x0 := -a * c / a2b2 + h
      let y0 := -b * c / a2b2 + k
      if fuzzyEqEps shortestDist radius eps then
        .tangentIntersect (parametricFromPoint p0 p1 ⟨x0, y0⟩)
      else
        let d := r2 - c2 / a2b2
        let mult := sqrt (abs (d / a2b2))
        let xSol1 := x0 + b * mult
        let xSol2 := x0 - b * mult
        let ySol1 := y0 - a * mult
        let ySol2 := y0 + a * mult
        let sol1 := parametricFromPoint p0 p1 ⟨xSol1, ySol1⟩
        let sol2 := parametricFromPoint p0 p1 ⟨xSol2, ySol2⟩
        let ts := minMax sol1 sol2
        .twoIntersects ts.1 ts.2

/-- `CircleCircleIntr`, `core/math/circle_circle_intersect.rs:6-26`. -/
inductive CircleCircleIntr (T : Type) where
  | noIntersect
  | tangentIntersect (point : V2 T)
  | twoIntersects (point1 point2 : V2 T)
  | overlapping
deriving DecidableEq, Repr

/-- `circle_circle_intr`, `core/math/circle_circle_intersect.rs:57-115`. -/
def circleCircleIntr (radius1 : T) (center1 : V2 T) (radius2 : T) (center2 : V2 T) (eps : T) :
    CircleCircleIntr T :=
  let cv := center2 - center1
  let d2 := cv.dot cv
  let d := sqrt d2
  if fuzzyEqZeroEps d eps then
    if fuzzyEqEps radius1 radius2 eps then .overlapping else .noIntersect
  else if !fuzzyLtEps d (radius1 + radius2) eps || !fuzzyGtEps d (abs (radius1 - radius2)) eps then
    .noIntersect
  else
    let rad1Sq := radius1 * radius1
    let a := (rad1Sq - radius2 * radius2 + d2) / (two * d)
    let mid := center1 + cv.scale (a / d)
    let diff := rad1Sq - a * a
    if lt diff 0 then .tangentIntersect mid
    else
      let h := sqrt diff
      let hOverD := h / d
      let xTerm := hOverD * cv.y
      let yTerm := hOverD * cv.x
      let pt1 : V2 T := ⟨mid.x + xTerm, mid.y - yTerm⟩
      let pt2 : V2 T := ⟨mid.x - xTerm, mid.y + yTerm⟩
      if pt1.fuzzyEqEps pt2 eps then .tangentIntersect pt1
      else .twoIntersects pt1 pt2

end Cavc
