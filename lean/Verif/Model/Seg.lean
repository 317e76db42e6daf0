import Verif.Model.Math

/-!
# Vertices and segments

Models `polyline/pline_vertex.rs`, `polyline/pline_seg.rs` and `polyline/pline_seg_intersect.rs`
(paths below are relative to `cavalier_contours/src`).
-/

namespace Cavc
open Scalar

/-- `PlineVertex`, `polyline/pline_vertex.rs:16-23`. -/
structure Vertex (T : Type) where
  x : T
  y : T
  bulge : T
deriving DecidableEq, Repr

variable {T : Type} [Scalar T]

namespace Vertex
/-- `PlineVertex::pos`, `polyline/pline_vertex.rs:106-108`. -/
def pos (v : Vertex T) : V2 T := ⟨v.x, v.y⟩
/-- `PlineVertex::from_vector2`, `polyline/pline_vertex.rs:94-96`. -/
def ofV2 (p : V2 T) (b : T) : Vertex T := ⟨p.x, p.y, b⟩
/-- `PlineVertex::with_bulge`, `polyline/pline_vertex.rs:100-102`. -/
def withBulge (v : Vertex T) (b : T) : Vertex T := ⟨v.x, v.y, b⟩
/-- `PlineVertex::from_slice`, `polyline/pline_vertex.rs:84-90`. -/
def fromSlice : List T → Option (Vertex T)
  | [x, y, b] => some ⟨x, y, b⟩
  | _ => none
/-- `PlineVertex::bulge_is_zero`, `polyline/pline_vertex.rs:112-114`. -/
def bulgeIsZero (v : Vertex T) : Bool := fuzzyEqZero v.bulge
/-- `PlineVertex::bulge_is_pos`, `polyline/pline_vertex.rs:119-121`. -/
def bulgeIsPos (v : Vertex T) : Bool := gt v.bulge 0
/-- `PlineVertex::bulge_is_neg`, `polyline/pline_vertex.rs:125-127`. -/
def bulgeIsNeg (v : Vertex T) : Bool := lt v.bulge 0
/-- `PlineVertex::fuzzy_eq_eps`, `polyline/pline_vertex.rs:131-135`. -/
def fuzzyEqEps (v u : Vertex T) (eps : T) : Bool :=
  Scalar.fuzzyEqEps v.x u.x eps && Scalar.fuzzyEqEps v.y u.y eps
    && Scalar.fuzzyEqEps v.bulge u.bulge eps
/-- `PlineVertex::fuzzy_eq`, `polyline/pline_vertex.rs:139-141`. -/
def fuzzyEq (v u : Vertex T) : Bool := v.fuzzyEqEps u Scalar.fuzzyEps
end Vertex

/-- `AABB` of the crate `static_aabb2d_index` (only used as a record of four numbers). -/
structure AABB (T : Type) where
  minX : T
  minY : T
  maxX : T
  maxY : T
deriving DecidableEq, Repr

/-- `seg_arc_radius_and_center`, `polyline/pline_seg.rs:28-57`. -/
def segArcRadiusAndCenter (v1 v2 : Vertex T) : T × V2 T :=
  let absBulge := abs v1.bulge
  let chordV := v2.pos - v1.pos
  let chordLen := chordV.length
  let radius := chordLen * (absBulge * absBulge + 1) / (four * absBulge)
  let s := absBulge * chordLen / two
  let m := radius - s
  let offsX := -m * chordV.y / chordLen
  let offsY := m * chordV.x / chordLen
  let offsX' := if v1.bulgeIsNeg then -offsX else offsX
  let offsY' := if v1.bulgeIsNeg then -offsY else offsY
  (radius, ⟨v1.x + chordV.x / two + offsX', v1.y + chordV.y / two + offsY'⟩)

/-- `SplitResult`, `polyline/pline_seg.rs:61-70`. -/
structure SplitResult (T : Type) where
  updatedStart : Vertex T
  splitVertex : Vertex T
deriving DecidableEq, Repr

/-- `seg_split_at_point`, `polyline/pline_seg.rs:88-148`. -/
def segSplitAtPoint (v1 v2 : Vertex T) (point : V2 T) (posEqualEps : T) : SplitResult T :=
  if v1.bulgeIsZero then
    ⟨v1, ⟨point.x, point.y, 0⟩⟩
  else if v1.pos.fuzzyEqEps v2.pos posEqualEps || v1.pos.fuzzyEqEps point posEqualEps then
    ⟨⟨point.x, point.y, 0⟩, ⟨point.x, point.y, v1.bulge⟩⟩
  else if v2.pos.fuzzyEqEps point posEqualEps then
    ⟨v1, ⟨v2.x, v2.y, 0⟩⟩
  else
    let arcCenter := (segArcRadiusAndCenter v1 v2).2
    let pointPosAngle := angle arcCenter point
    let arcStartAngle := angle arcCenter v1.pos
    let theta1 := deltaAngleSigned arcStartAngle pointPosAngle v1.bulgeIsNeg
    let bulge1 := bulgeFromAngle theta1
    let arcEndAngle := angle arcCenter v2.pos
    let theta2 := deltaAngleSigned pointPosAngle arcEndAngle v1.bulgeIsNeg
    let bulge2 := bulgeFromAngle theta2
    ⟨⟨v1.x, v1.y, bulge1⟩, ⟨point.x, point.y, bulge2⟩⟩

/-- `seg_tangent_vector`, `polyline/pline_seg.rs:168-194`. -/
def segTangentVector (v1 v2 : Vertex T) (point : V2 T) : V2 T :=
  if v1.bulgeIsZero then v2.pos - v1.pos
  else
    let arcCenter := (segArcRadiusAndCenter v1 v2).2
    if v1.bulgeIsPos then ⟨-(point.y - arcCenter.y), point.x - arcCenter.x⟩
    else ⟨point.y - arcCenter.y, -(point.x - arcCenter.x)⟩

/-- `seg_closest_point`, `polyline/pline_seg.rs:218-258`. -/
def segClosestPoint (v1 v2 : Vertex T) (point : V2 T) (epsilon : T) : V2 T :=
  if v1.bulgeIsZero then lineSegClosestPoint v1.pos v2.pos point
  else
    let rc := segArcRadiusAndCenter v1 v2
    let arcRadius := rc.1
    let arcCenter := rc.2
    if point.fuzzyEqEps arcCenter epsilon then v1.pos
    else if pointWithinArcSweep arcCenter v1.pos v2.pos v1.bulgeIsNeg point epsilon then
      let vToPoint := (point - arcCenter).normalize
      vToPoint.scale arcRadius + arcCenter
    else
      let dist1 := distSquared v1.pos point
      let dist2 := distSquared v2.pos point
      if lt dist1 dist2 then v1.pos else v2.pos

/-- `seg_fast_approx_bounding_box`, `polyline/pline_seg.rs:265-295`. -/
def segFastApproxBoundingBox (v1 v2 : Vertex T) : AABB T :=
  if v1.bulgeIsZero then
    let xs := minMax v1.x v2.x
    let ys := minMax v1.y v2.y
    ⟨xs.1, ys.1, xs.2, ys.2⟩
  else
    let b := v1.bulge
    let offsX := b * (v2.y - v1.y) / two
    let offsY := -b * (v2.x - v1.x) / two
    let ptX := minMax (v1.x + offsX) (v2.x + offsX)
    let ptY := minMax (v1.y + offsY) (v2.y + offsY)
    let endX := minMax v1.x v2.x
    let endY := minMax v1.y v2.y
    ⟨Scalar.min endX.1 ptX.1, Scalar.min endY.1 ptY.1,
     Scalar.max endX.2 ptX.2, Scalar.max endY.2 ptY.2⟩

/-- `arc_seg_bounding_box`, `polyline/pline_seg.rs:298-344`. -/
def arcSegBoundingBox (v1 v2 : Vertex T) : AABB T :=
  if v1.pos.fuzzyEq v2.pos then ⟨v1.x, v1.y, v1.x, v1.y⟩
  else
    let rc := segArcRadiusAndCenter v1 v2
    let arcRadius := rc.1
    let arcCenter := rc.2
    let startAngle := angle arcCenter v1.pos
    let endAngle := angle arcCenter v2.pos
    let sweepAngle := deltaAngleSigned startAngle endAngle v1.bulgeIsNeg
    let crosses := fun a => angleIsWithinSweep a startAngle sweepAngle
    let minX := if crosses pi then arcCenter.x - arcRadius else Scalar.min v1.x v2.x
    let minY := if crosses (ofRatio 3 2 * pi) then arcCenter.y - arcRadius
      else Scalar.min v1.y v2.y
    let maxX := if crosses 0 then arcCenter.x + arcRadius else Scalar.max v1.x v2.x
    let maxY := if crosses (ofRatio 1 2 * pi) then arcCenter.y + arcRadius
      else Scalar.max v1.y v2.y
    ⟨minX, minY, maxX, maxY⟩

/-- `seg_bounding_box`, `polyline/pline_seg.rs:349-361`. -/
def segBoundingBox (v1 v2 : Vertex T) : AABB T :=
  if v1.bulgeIsZero then
    let xs := minMax v1.x v2.x
    let ys := minMax v1.y v2.y
    ⟨xs.1, ys.1, xs.2, ys.2⟩
  else arcSegBoundingBox v1 v2

/-- `seg_length`, `polyline/pline_seg.rs:388-404`. -/
def segLength (v1 v2 : Vertex T) : T :=
  if v1.fuzzyEq v2 then 0
  else if v1.bulgeIsZero then sqrt (distSquared v1.pos v2.pos)
  else
    let rc := segArcRadiusAndCenter v1 v2
    let startAngle := angle rc.2 v1.pos
    let endAngle := angle rc.2 v2.pos
    rc.1 * abs (deltaAngle startAngle endAngle)

/-- `seg_midpoint`, `polyline/pline_seg.rs:429-443`. -/
def segMidpoint (v1 v2 : Vertex T) : V2 T :=
  if v1.bulgeIsZero then midpoint v1.pos v2.pos
  else
    let rc := segArcRadiusAndCenter v1 v2
    let angle1 := angle rc.2 v1.pos
    let angle2 := angle rc.2 v2.pos
    let angleOffset := deltaAngleSigned angle1 angle2 v1.bulgeIsNeg / two
    pointOnCircle rc.1 rc.2 (angle1 + angleOffset)

/-- `PlineSegIntr`, `polyline/pline_seg_intersect.rs:15-52`. -/
inductive PlineSegIntr (T : Type) where
  | noIntersect
  | tangentIntersect (point : V2 T)
  | oneIntersect (point : V2 T)
  | twoIntersects (point1 point2 : V2 T)
  | overlappingLines (point1 point2 : V2 T)
  | overlappingArcs (point1 point2 : V2 T)
deriving DecidableEq, Repr

/-- closures `point_lies_on_arc`, `point_lies_on_arc1/2`,
`polyline/pline_seg_intersect.rs:99-110, 270-295`. -/
def pointLiesOnArc (radius : T) (center : V2 T) (a1 a2 : Vertex T) (eps : T) (pt : V2 T) : Bool :=
  pointWithinArcSweep center a1.pos a2.pos a1.bulgeIsNeg pt eps
    && fuzzyEqEps (sqrt (distSquared pt center)) radius eps

/-- closure `process_line_arc_intr`, `polyline/pline_seg_intersect.rs:92-228`. -/
def processLineArcIntr (uIsLine : Bool) (p0 p1 : V2 T) (a1 a2 : Vertex T) (eps : T) :
    PlineSegIntr T :=
  let rc := segArcRadiusAndCenter a1 a2
  let arcRadius := rc.1
  let arcCenter := rc.2
  let liesOnArc := pointLiesOnArc arcRadius arcCenter a1 a2 eps
  let lineLength := (p1 - p0).length
  let pointInSweep := fun (t : T) =>
    if !fuzzyInRangeEps (t * lineLength) 0 lineLength eps then (none : Option (V2 T))
    else
      let p := pointFromParametric p0 p1 t
      if pointWithinArcSweep arcCenter a1.pos a2.pos a1.bulgeIsNeg p eps then some p else none
  match lineCircleIntr p0 p1 arcRadius arcCenter eps with
  | .noIntersect => .noIntersect
  | .tangentIntersect t0 =>
    if liesOnArc p0 then .tangentIntersect p0
    else if liesOnArc p1 then .tangentIntersect p1
    else match pointInSweep t0 with
      | some point => .tangentIntersect point
      | none => .noIntersect
  | .twoIntersects t0 t1 =>
    match pointInSweep t0, pointInSweep t1 with
    | none, none => .noIntersect
    | none, some point | some point, none =>
      if liesOnArc p0 then .oneIntersect p0
      else if liesOnArc p1 then .oneIntersect p1
      else .oneIntersect point
    | some point1, some point2 =>
      let pts : V2 T × V2 T :=
        match liesOnArc p0, liesOnArc p1 with
        | true, true =>
          if lt (distSquared p0 point1) (distSquared p0 point2) then (p0, p1) else (p1, p0)
        | true, false =>
          if lt (distSquared p0 point1) (distSquared p0 point2) then (p0, point2)
          else (point1, p0)
        | false, true =>
          if lt (distSquared p1 point1) (distSquared p1 point2) then (p1, point2)
          else (point1, p1)
        | false, false => (point1, point2)
      if uIsLine || lt (distSquared pts.1 a1.pos) (distSquared pts.2 a1.pos) then
        .twoIntersects pts.1 pts.2
      else .twoIntersects pts.2 pts.1

/-- closure `try_add_end_point_intr`, `polyline/pline_seg_intersect.rs:331-347`: the array of two
slots as a pair of options. -/
def tryAddEndPointIntr (slots : Option (V2 T) × Option (V2 T)) (intr : V2 T) (eps : T) :
    Option (V2 T) × Option (V2 T) :=
  match slots.1 with
  | none => (some intr, slots.2)
  | some pt =>
    if pt.fuzzyEqEps intr eps then slots
    else match slots.2 with
      | none => (some pt, some intr)
      | some _ => slots

/-- the two-intersects arm of the arc-arc case, `polyline/pline_seg_intersect.rs:325-425`. -/
def arcArcTwoIntr (onArc1 onArc2 bothSweep : V2 T → Bool) (v1 v2 u1 u2 : Vertex T)
    (point1 point2 : V2 T) (eps : T) : PlineSegIntr T :=
  let slots : Option (V2 T) × Option (V2 T) := (none, none)
  let slots := if onArc1 u1.pos then tryAddEndPointIntr slots u1.pos eps else slots
  let slots := if onArc1 u2.pos then tryAddEndPointIntr slots u2.pos eps else slots
  let slots := if onArc2 v1.pos then tryAddEndPointIntr slots v1.pos eps else slots
  let slots := if onArc2 v2.pos then tryAddEndPointIntr slots v2.pos eps else slots
  let pt1InSweep := bothSweep point1
  let pt2InSweep := bothSweep point2
  if pt1InSweep && pt2InSweep then
    match slots with
    | (none, none) => .twoIntersects point1 point2
    | (none, some endPt) | (some endPt, none) =>
      if lt (distSquared endPt point1) (distSquared endPt point2) then
        .twoIntersects endPt point2
      else .twoIntersects point1 endPt
    | (some endPt1, some endPt2) =>
      if lt (distSquared endPt1 point1) (distSquared endPt2 point1) then
        .twoIntersects endPt1 endPt2
      else .twoIntersects endPt2 endPt1
  else if pt1InSweep then
    match slots with
    | (none, none) => .oneIntersect point1
    | (none, some endPt) | (some endPt, none) => .oneIntersect endPt
    | (some endPt1, some endPt2) => .twoIntersects endPt1 endPt2
  else if pt2InSweep then
    match slots with
    | (none, none) => .oneIntersect point2
    | (none, some endPt) | (some endPt, none) => .oneIntersect endPt
    | (some endPt1, some endPt2) => .twoIntersects endPt1 endPt2
  else
    match slots with
    | (none, none) => .noIntersect
    | (none, some endPt) | (some endPt, none) => .oneIntersect endPt
    | (some endPt1, some endPt2) => .twoIntersects endPt1 endPt2

/-- the overlapping-circles arm of the arc-arc case, `polyline/pline_seg_intersect.rs:426-535`. -/
def arcArcOverlap (arc1Radius : T) (arc1Center : V2 T) (arc2Radius : T) (arc2Center : V2 T)
    (v1 v2 u1 u2 : Vertex T) (eps : T) : PlineSegIntr T :=
  let sameDirectionArcs := v1.bulgeIsNeg == u1.bulgeIsNeg
  let arc1Start := normalizeRadians (angle arc1Center v1.pos)
  let arc1Sweep := angleFromBulge v1.bulge
  let arc2Start :=
    if sameDirectionArcs then normalizeRadians (angle arc2Center u1.pos)
    else normalizeRadians (angle arc2Center u2.pos)
  let arc2Sweep :=
    if sameDirectionArcs then angleFromBulge u1.bulge else angleFromBulge (-u1.bulge)
  let arc1End := arc1Start + arc1Sweep
  let arc2End := arc2Start + arc2Sweep
  let avgRadius := (arc1Radius + arc2Radius) / two
  match fuzzyEqZeroEps (avgRadius * deltaAngle arc1Start arc2End) eps,
        fuzzyEqZeroEps (avgRadius * deltaAngle arc2Start arc1End) eps with
  | true, true => .twoIntersects u1.pos u2.pos
  | true, false => .oneIntersect v1.pos
  | false, true => .oneIntersect u1.pos
  | false, false =>
    let arc2StartsInArc1 := angleIsWithinSweep arc2Start arc1Start arc1Sweep
    let arc2EndsInArc1 := angleIsWithinSweep arc2End arc1Start arc1Sweep
    if arc2StartsInArc1 && arc2EndsInArc1 then .overlappingArcs u1.pos u2.pos
    else if arc2StartsInArc1 then
      if sameDirectionArcs then .overlappingArcs u1.pos v2.pos
      else .overlappingArcs v2.pos u2.pos
    else if arc2EndsInArc1 then
      if sameDirectionArcs then .overlappingArcs v1.pos u2.pos
      else .overlappingArcs u1.pos v1.pos
    else if angleIsWithinSweep arc1Start arc2Start arc2Sweep then
      if sameDirectionArcs then .overlappingArcs v1.pos v2.pos
      else .overlappingArcs v2.pos v1.pos
    else .noIntersect

/-- `pline_seg_intr`, `polyline/pline_seg_intersect.rs:58-537`. -/
def plineSegIntr (v1 v2 u1 u2 : Vertex T) (eps : T) : PlineSegIntr T :=
  let vIsLine := v1.bulgeIsZero
  let uIsLine := u1.bulgeIsZero
  if vIsLine && uIsLine then
    match lineLineIntr v1.pos v2.pos u1.pos u2.pos eps with
    | .noIntersect | .falseIntersect _ _ => .noIntersect
    | .trueIntersect seg1T _ => .oneIntersect (pointFromParametric v1.pos v2.pos seg1T)
    | .overlapping t0 t1 =>
      .overlappingLines (pointFromParametric u1.pos u2.pos t0)
        (pointFromParametric u1.pos u2.pos t1)
  else if vIsLine then processLineArcIntr uIsLine v1.pos v2.pos u1 u2 eps
  else if uIsLine then processLineArcIntr uIsLine u1.pos u2.pos v1 v2 eps
  else
    let rc1 := segArcRadiusAndCenter v1 v2
    let rc2 := segArcRadiusAndCenter u1 u2
    let bothSweep := fun pt =>
      pointWithinArcSweep rc1.2 v1.pos v2.pos v1.bulgeIsNeg pt eps
        && pointWithinArcSweep rc2.2 u1.pos u2.pos u1.bulgeIsNeg pt eps
    let onArc1 := pointLiesOnArc rc1.1 rc1.2 v1 v2 eps
    let onArc2 := pointLiesOnArc rc2.1 rc2.2 u1 u2 eps
    match circleCircleIntr rc1.1 rc1.2 rc2.1 rc2.2 eps with
    | .noIntersect => .noIntersect
    | .tangentIntersect point =>
      if onArc1 u1.pos then .tangentIntersect u1.pos
      else if onArc1 u2.pos then .tangentIntersect u2.pos
      else if onArc2 v1.pos then .tangentIntersect v1.pos
      else if onArc2 v2.pos then .tangentIntersect v2.pos
      else if bothSweep point then .tangentIntersect point
      else .noIntersect
    | .twoIntersects point1 point2 =>
      arcArcTwoIntr onArc1 onArc2 bothSweep v1 v2 u1 u2 point1 point2 eps
    | .overlapping => arcArcOverlap rc1.1 rc1.2 rc2.1 rc2.2 v1 v2 u1 u2 eps

end Cavc
