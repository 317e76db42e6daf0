import Verif.Model.Boolean

/-!
# Parallel offset

Models `polyline/internal/pline_offset.rs` (paths relative to `cavalier_contours/src`).
`debug_assert`s are not modelled (release build); `unreachable!`, failing `unwrap` and failing
indexing are.
-/

namespace Cavc
open Scalar

/-- `PlineOffsetOptions`, `polyline/pline_types.rs:23-50`. -/
structure OffsetOptions (T : Type) where
  aabbIndex : Option (Index T)
  handleSelfIntersects : Bool
  posEqualEps : T
  sliceJoinEps : T
  offsetDistEps : T

/-- `RawPlineOffsetSeg`, `polyline/internal/pline_offset.rs:23-31`. -/
structure RawSeg (T : Type) where
  v1 : Vertex T
  v2 : Vertex T
  origV2Pos : V2 T
  collapsedArc : Bool
deriving DecidableEq, Repr

variable {T : Type} [Scalar T]

/-- closure `process_line_seg`, `polyline/internal/pline_offset.rs:39-48`. -/
def rawLineSeg (offset : T) (v1 v2 : Vertex T) : RawSeg T :=
  let offsetV := ((v2.pos - v1.pos).unitPerp).scale offset
  ⟨Vertex.ofV2 (v1.pos + offsetV) 0, Vertex.ofV2 (v2.pos + offsetV) 0, v2.pos, false⟩

/-- closure `process_arc_seg`, `polyline/internal/pline_offset.rs:50-72`. -/
def rawArcSeg (offset : T) (v1 v2 : Vertex T) : RawSeg T :=
  let rc := segArcRadiusAndCenter v1 v2
  let offs := if v1.bulgeIsNeg then offset else -offset
  let radiusAfter := rc.1 + offs
  let d1 := (v1.pos - rc.2).normalize
  let d2 := (v2.pos - rc.2).normalize
  let collapsed := fuzzyLt radiusAfter 0
  let newBulge := if collapsed then 0 else v1.bulge
  ⟨Vertex.ofV2 (d1.scale offs + v1.pos) newBulge, Vertex.ofV2 (d2.scale offs + v2.pos) v2.bulge,
    v2.pos, collapsed⟩

/-- the closure mapped over the segments, `polyline/internal/pline_offset.rs:77-83`. -/
def rawSeg (offset : T) (s : Vertex T × Vertex T) : RawSeg T :=
  if s.1.bulgeIsZero then rawLineSeg offset s.1 s.2 else rawArcSeg offset s.1 s.2

/-- `create_untrimmed_raw_offset_segs`, `polyline/internal/pline_offset.rs:34-92`. -/
def createUntrimmedRawOffsetSegs (p : Pline T) (offset : T) : List (RawSeg T) :=
  p.segs.map (rawSeg offset)

/-- `is_false_intersect`, `polyline/internal/pline_offset.rs:97-102`. -/
def isFalseIntersect (t : T) : Bool := lt t 0 || gt t 1

/-- `bulge_for_connection`, `polyline/internal/pline_offset.rs:106-118`. -/
def bulgeForConnection (c sp ep : V2 T) (isCcw : Bool) : T :=
  bulgeFromAngle (deltaAngleSigned (angle c sp) (angle c ep) (!isCcw))

/-- `add_or_replace`, `polyline/traits.rs` (with the vertex built from its coordinates). -/
def Pline.addOrReplace (p : Pline T) (pos : V2 T) (bulge eps : T) : M (Pline T) :=
  p.addOrReplaceVertex (Vertex.ofV2 pos bulge) eps

/-- `connect_using_arc`, `polyline/internal/pline_offset.rs:123-139`. -/
def connectUsingArc (s1 s2 : RawSeg T) (ccw : Bool) (result : Pline T) (eps : T) : M (Pline T) := do
  let sp := s1.v2.pos
  let ep := s2.v1.pos
  let bulge := bulgeForConnection s1.origV2Pos sp ep ccw
  let r ← result.addOrReplace sp bulge eps
  r.addOrReplace ep s2.v1.bulge eps

/-- `line_line_join`, `polyline/internal/pline_offset.rs:150-206`. -/
def lineLineJoin (s1 s2 : RawSeg T) (ccw : Bool) (eps : T) (result : Pline T) : M (Pline T) :=
  if s1.collapsedArc || s2.collapsedArc then connectUsingArc s1 s2 ccw result eps
  else match lineLineIntr s1.v1.pos s1.v2.pos s2.v1.pos s2.v2.pos eps with
    | .noIntersect => do
      let r ← result.addOrReplace s1.v2.pos (if ccw then 1 else -1) eps
      r.addOrReplace s2.v1.pos s2.v1.bulge eps
    | .trueIntersect t1 _ =>
      result.addOrReplace (pointFromParametric s1.v1.pos s1.v2.pos t1) 0 eps
    | .overlapping _ _ => result.addOrReplace s1.v2.pos 0 eps
    | .falseIntersect t1 t2 =>
      if gt t1 1 && isFalseIntersect t2 then connectUsingArc s1 s2 ccw result eps
      else do
        let r ← result.addOrReplace s1.v2.pos 0 eps
        r.addOrReplace s2.v1.pos s2.v1.bulge eps

/-- closure `process_intersect` of `line_arc_join`, `polyline/internal/pline_offset.rs:232-276`. -/
def lineArcProcess (s1 s2 : RawSeg T) (ccw : Bool) (eps : T) (arcCenter : V2 T) (result : Pline T)
    (t : T) (intersect : V2 T) : M (Pline T) :=
  let trueLine := !isFalseIntersect t
  let trueArc := pointWithinArcSweep arcCenter s2.v1.pos s2.v2.pos s2.v1.bulgeIsNeg intersect eps
  if trueLine && trueArc then
    let a := angle arcCenter intersect
    let arcEndAngle := angle arcCenter s2.v2.pos
    let theta := deltaAngle a arcEndAngle
    if gt theta 0 == s2.v1.bulgeIsPos then result.addOrReplace intersect (bulgeFromAngle theta) eps
    else result.addOrReplace intersect s2.v1.bulge eps
  else if gt t 1 && !trueArc then connectUsingArc s1 s2 ccw result eps
  else if s1.collapsedArc then connectUsingArc s1 s2 ccw result eps
  else do
    let r ← result.addOrReplace s1.v2.pos 0 eps
    r.addOrReplaceVertex s2.v1 eps

/-- `line_arc_join`, `polyline/internal/pline_offset.rs:209-299`. -/
def lineArcJoin (s1 s2 : RawSeg T) (ccw : Bool) (eps : T) (result : Pline T) : M (Pline T) :=
  let rc := segArcRadiusAndCenter s2.v1 s2.v2
  let process := lineArcProcess s1 s2 ccw eps rc.2 result
  match lineCircleIntr s1.v1.pos s1.v2.pos rc.1 rc.2 eps with
  | .noIntersect => connectUsingArc s1 s2 ccw result eps
  | .tangentIntersect t0 => process t0 (pointFromParametric s1.v1.pos s1.v2.pos t0)
  | .twoIntersects t0 t1 =>
    let intr1 := pointFromParametric s1.v1.pos s1.v2.pos t0
    let dist1 := distSquared intr1 s1.origV2Pos
    let intr2 := pointFromParametric s1.v1.pos s1.v2.pos t1
    let dist2 := distSquared intr2 s1.origV2Pos
    if lt dist1 dist2 then process t0 intr1 else process t1 intr2

/-- Trimming of the previous arc, `polyline/internal/pline_offset.rs:337-352` and `436-452`. -/
def trimPrevArc (v2 : Vertex T) (eps : T) (arcCenter intersect : V2 T) (result : Pline T) :
    M (Pline T) := do
  let prev ← unwrap result.last
  if !prev.bulgeIsZero && !prev.pos.fuzzyEqEps v2.pos eps then
    let a := angle arcCenter intersect
    let prc := segArcRadiusAndCenter prev v2
    let startAngle := angle prc.2 prev.pos
    let theta := deltaAngle startAngle a
    if gt theta 0 == prev.bulgeIsPos then result.setLast (prev.withBulge (bulgeFromAngle theta))
    else .ok result
  else .ok result

/-- closure `process_intersect` of `arc_line_join`, `polyline/internal/pline_offset.rs:325-359`. -/
def arcLineProcess (s1 s2 : RawSeg T) (ccw : Bool) (eps : T) (arcCenter : V2 T) (result : Pline T)
    (t : T) (intersect : V2 T) : M (Pline T) :=
  let trueLine := !isFalseIntersect t
  let trueArc := pointWithinArcSweep arcCenter s1.v1.pos s1.v2.pos s1.v1.bulgeIsNeg intersect eps
  if trueLine && trueArc then do
    let r ← trimPrevArc s1.v2 eps arcCenter intersect result
    r.addOrReplace intersect 0 eps
  else connectUsingArc s1 s2 ccw result eps

/-- `arc_line_join`, `polyline/internal/pline_offset.rs:302-387`. -/
def arcLineJoin (s1 s2 : RawSeg T) (ccw : Bool) (eps : T) (result : Pline T) : M (Pline T) :=
  let rc := segArcRadiusAndCenter s1.v1 s1.v2
  let process := arcLineProcess s1 s2 ccw eps rc.2 result
  match lineCircleIntr s2.v1.pos s2.v2.pos rc.1 rc.2 eps with
  | .noIntersect => connectUsingArc s1 s2 ccw result eps
  | .tangentIntersect t0 => process t0 (pointFromParametric s2.v1.pos s2.v2.pos t0)
  | .twoIntersects t0 t1 =>
    let origPoint := if s2.collapsedArc then s2.v1.pos else s1.origV2Pos
    let intr1 := pointFromParametric s2.v1.pos s2.v2.pos t0
    let dist1 := distSquared intr1 origPoint
    let intr2 := pointFromParametric s2.v1.pos s2.v2.pos t1
    let dist2 := distSquared intr2 origPoint
    if lt dist1 dist2 then process t0 intr1 else process t1 intr2

/-- closure `process_intersect` of `arc_arc_join`, `polyline/internal/pline_offset.rs:432-471`. -/
def arcArcProcess (s1 s2 : RawSeg T) (ccw : Bool) (eps : T) (c1 c2 : V2 T) (result : Pline T)
    (intersect : V2 T) (trueIntersect : Bool) : M (Pline T) :=
  if !trueIntersect then connectUsingArc s1 s2 ccw result eps
  else do
    let r ← trimPrevArc s1.v2 eps c1 intersect result
    let a2 := angle c2 intersect
    let endAngle := angle c2 s2.v2.pos
    let theta := deltaAngle a2 endAngle
    if gt theta 0 == s2.v1.bulgeIsPos then r.addOrReplace intersect (bulgeFromAngle theta) eps
    else r.addOrReplace intersect s2.v1.bulge eps

/-- `arc_arc_join`, `polyline/internal/pline_offset.rs:390-511`. -/
def arcArcJoin (s1 s2 : RawSeg T) (ccw : Bool) (eps : T) (result : Pline T) : M (Pline T) :=
  let rc1 := segArcRadiusAndCenter s1.v1 s1.v2
  let rc2 := segArcRadiusAndCenter s2.v1 s2.v2
  let both := fun (point : V2 T) =>
    pointWithinArcSweep rc1.2 s1.v1.pos s1.v2.pos s1.v1.bulgeIsNeg point eps &&
    pointWithinArcSweep rc2.2 s2.v1.pos s2.v2.pos s2.v1.bulgeIsNeg point eps
  let process := arcArcProcess s1 s2 ccw eps rc1.2 rc2.2 result
  match circleCircleIntr rc1.1 rc1.2 rc2.1 rc2.2 eps with
  | .noIntersect => connectUsingArc s1 s2 ccw result eps
  | .tangentIntersect point => process point (both point)
  | .twoIntersects point1 point2 =>
    let dist1 := distSquared point1 s1.origV2Pos
    let dist2 := distSquared point2 s1.origV2Pos
    if fuzzyEqEps dist1 dist2 eps then
      if both point1 then process point1 true else process point2 (both point2)
    else if lt dist1 dist2 then process point1 (both point1)
    else process point2 (both point2)
  | .overlapping => result.addOrReplaceVertex s2.v1 eps

/-- closure `join_seg_pair`, `polyline/internal/pline_offset.rs:540-549`. -/
def joinSegPair (ccw : Bool) (eps : T) (s1 s2 : RawSeg T) (result : Pline T) : M (Pline T) :=
  match s1.v1.bulgeIsZero, s2.v1.bulgeIsZero with
  | true, true => lineLineJoin s1 s2 ccw eps result
  | true, false => lineArcJoin s1 s2 ccw eps result
  | false, true => arcLineJoin s1 s2 ccw eps result
  | false, false => arcArcJoin s1 s2 ccw eps result

/-- The joins of a list of consecutive pairs, `polyline/internal/pline_offset.rs:565-567`. -/
def joinPairs (ccw : Bool) (eps : T) : List (RawSeg T × RawSeg T) → Pline T → M (Pline T)
  | [], r => .ok r
  | (s1, s2) :: rest, r => do
    let r ← joinSegPair ccw eps s1 s2 r
    joinPairs ccw eps rest r

/-- Update of the first vertex after closing, `polyline/internal/pline_offset.rs:585-614`. -/
def rawUpdateFirst (result closing : Pline T) : M (Pline T) := do
  let l ← unwrap closing.last
  let v0 ← result.at 0
  if v0.bulgeIsZero then result.setVertex 0 (Vertex.ofV2 l.pos v0.bulge)
  else if result.vertexCount > 1 then do
    let v1 ← result.at 1
    let rc := segArcRadiusAndCenter v0 v1
    let a1 := angle rc.2 l.pos
    let a2 := angle rc.2 v1.pos
    let theta := deltaAngle a1 a2
    if (lt theta 0 && v0.bulgeIsPos) || (gt theta 0 && v0.bulgeIsNeg) then
      result.setVertex 0 (Vertex.ofV2 l.pos v0.bulge)
    else result.setVertex 0 (Vertex.ofV2 l.pos (bulgeFromAngle theta))
  else .ok result

/-- Final singularity prune, `polyline/internal/pline_offset.rs:616-635`. -/
def rawFinalPrune (eps : T) (result : Pline T) : M (Pline T) :=
  if result.vertexCount > 1 then do
    let v0 ← result.at 0
    let l ← unwrap result.last
    let result ← if v0.pos.fuzzyEqEps l.pos eps then do
        let r ← result.removeLast
        .ok r.2
      else .ok result
    if result.vertexCount > 1 then do
      let v0 ← result.at 0
      let v1 ← result.at 1
      if v0.pos.fuzzyEqEps v1.pos eps then do
        let r ← result.remove 0
        .ok r.2
      else .ok result
    else .ok result
  else .ok result

/-- The closing part, `polyline/internal/pline_offset.rs:569-635`. -/
def rawClose (ccw : Bool) (eps : T) (sLast s0 : RawSeg T) (firstReplaced : Bool)
    (result : Pline T) : M (Pline T) := do
  let l ← unwrap result.last
  let closing ← joinSegPair ccw eps sLast s0 ⟨[l], false⟩
  let c0 ← closing.at 0
  let result ← result.setLast c0
  let result := result.extendVertexes (closing.verts.drop 1)
  let result ← if !firstReplaced then rawUpdateFirst result closing else .ok result
  rawFinalPrune eps result

/-- `create_raw_offset_polyline`, `polyline/internal/pline_offset.rs:513-648`. -/
def createRawOffsetPolyline (p : Pline T) (offset eps : T) : M (Pline T) :=
  if p.vertexCount < 2 then .ok ⟨[], false⟩
  else match createUntrimmedRawOffsetSegs p offset with
    | [] => .ok ⟨[], false⟩
    | s0 :: rest =>
      if rest.isEmpty && s0.collapsedArc then .ok ⟨[], false⟩
      else do
        let segs := s0 :: rest
        let ccw := lt offset 0
        let result : Pline T := ⟨[s0.v1], p.closed⟩
        let pairs := segs.zip rest
        let result ← joinPairs ccw eps (pairs.take 1) result
        let firstReplaced := result.vertexCount == 1
        let result ← joinPairs ccw eps (pairs.drop 1) result
        let sLast := segs.getLast (by simp [segs])
        let result ←
          if p.closed && decide (result.vertexCount > 1) then
            rawClose ccw eps sLast s0 firstReplaced result
          else result.addOrReplaceVertex sLast.v2 eps
        .ok (if result.vertexCount == 1 then result.clear else result)

/-- The loop of `point_valid_for_offset` over the hits,
`polyline/internal/pline_offset.rs:667-677`. -/
def pointValidLoop (p : Pline T) (minDist : T) (point : V2 T) (eps : T) : List Nat → M Bool
  | [] => .ok true
  | i :: rest => do
    let a ← p.at i
    let b ← p.at (p.nextWrap i)
    let closest := segClosestPoint a b point eps
    if gt (distSquared closest point) minDist then pointValidLoop p minDist point eps rest
    else .ok false

/-- `point_valid_for_offset`, `polyline/internal/pline_offset.rs:651-688`. -/
def pointValidForOffset (p : Pline T) (offset : T) (idx : Index T) (point : V2 T)
    (eps offsetTol : T) : M Bool :=
  let absOffset := Scalar.abs offset - offsetTol
  let minDist := absOffset * absOffset
  pointValidLoop p minDist point eps
    (idx.query ⟨point.x - absOffset, point.y - absOffset, point.x + absOffset, point.y + absOffset⟩)

/-- the loop of `intersects_original_pline`, `polyline/internal/pline_offset.rs:770-787`. -/
def intersectsOriginalLoop (p : Pline T) (eps : T) (v1 v2 : Vertex T) : List Nat → M Bool
  | [] => .ok false
  | i :: rest => do
    let a ← p.at i
    let b ← p.at (p.nextWrap i)
    match plineSegIntr v1 v2 a b eps with
    | .noIntersect => intersectsOriginalLoop p eps v1 v2 rest
    | _ => .ok true

/-- closure `intersects_original_pline`, `polyline/internal/pline_offset.rs:766-799` and
`1135-1168`. -/
def intersectsOriginal (p : Pline T) (idx : Index T) (eps : T) (v1 v2 : Vertex T) : M Bool :=
  intersectsOriginalLoop p eps v1 v2
    (idx.query ((segFastApproxBoundingBox v1 v2).grow fuzzyEps))

/-- The loop over the slice's segments, `polyline/internal/pline_offset.rs:858-868`. -/
def sliceSegsValid (valid : V2 T → M Bool) (intersects : Vertex T → Vertex T → M Bool) :
    List (Vertex T × Vertex T) → M Bool
  | [] => .ok true
  | (v1, v2) :: rest => do
    if !(← valid v1.pos) then .ok false
    else if (← intersects v1 v2) then .ok false
    else sliceSegsValid valid intersects rest

/-- closure `slice_is_valid`, `polyline/internal/pline_offset.rs:813-871` and `1182-1240`. -/
def sliceIsValid (raw : Pline T) (valid : V2 T → M Bool) (intersects : Vertex T → Vertex T → M Bool)
    (s : ViewData T) : M Bool :=
  if s.endIndexOffset = 0 then do
    let v1 := s.updatedStart
    if !(← valid v1.pos) then .ok false
    else do
      let v2 := Vertex.ofV2 s.endPoint 0
      if !(← valid v2.pos) then .ok false
      else if !(← valid (segMidpoint v1 v2)) then .ok false
      else do
        let i ← intersects v1 v2
        .ok (!i)
  else do
    let nv ← raw.at (raw.nextWrap s.startIndex)
    if !(← valid (segMidpoint s.updatedStart nv)) then .ok false
    else do
      let endIndex := raw.fwdIndex s.startIndex s.endIndexOffset
      let ev ← raw.at endIndex
      if !(← valid (segMidpoint (ev.withBulge s.updatedEndBulge) (Vertex.ofV2 s.endPoint 0))) then
        .ok false
      else do
        let view ← s.toPline raw
        if !(← sliceSegsValid valid intersects view.segs) then .ok false
        else valid s.endPoint

/-- Sorting of one intersect list, `polyline/internal/pline_offset.rs:757-764`. -/
def sortIntrList (env : Env T) (raw : Pline T) (e : Nat × List (V2 T)) : M (Nat × List (V2 T)) := do
  let v ← raw.at e.1
  .ok (e.1, env.sortBy (fun a b => totalCmp (distSquared a v.pos) (distSquared b v.pos)) e.2)

/-- `intersects_lookup` from the pushed entries. -/
def buildIntrLookup (env : Env T) (raw : Pline T) (es : List (Nat × V2 T)) :
    M (List (Nat × List (V2 T))) :=
  (es.foldl (fun m e => mapPush e.1 e.2 m) []).mapM (sortIntrList env raw)

/-- A slice if it exists and is valid. -/
def sliceIfValid (raw : Pline T) (valid : V2 T → M Bool)
    (intersects : Vertex T → Vertex T → M Bool) (o : Option (ViewData T)) :
    M (List (ViewData T)) :=
  match o with
  | none => .ok []
  | some s => do
    let v ← sliceIsValid raw valid intersects s
    .ok (if v then [s] else [])

/-- `windows(2)` of a list. -/
def windows2 {α : Type} (l : List α) : List (α × α) := l.zip (l.drop 1)

/-- The slices between consecutive intersects of one segment,
`polyline/internal/pline_offset.rs:874-890`. -/
def sameSegOffsetSlices (raw : Pline T) (valid : V2 T → M Bool)
    (intersects : Vertex T → Vertex T → M Bool) (eps : T) (startIndex : Nat) (l : List (V2 T)) :
    M (List (ViewData T)) := do
  let ss ← (windows2 l).mapM (fun (ab : V2 T × V2 T) => do
    let s ← ViewData.fromSlicePoints raw ab.1 startIndex ab.2 startIndex eps
    sliceIfValid raw valid intersects s)
  .ok ss.flatten

/-- The slice from `lastIntr` on segment `startIndex` to the first intersect of the entry `found`,
`polyline/internal/pline_offset.rs:896-915` and `1286-1305`. -/
def offsetSliceTo (raw : Pline T) (valid : V2 T → M Bool) (intersects : Vertex T → Vertex T → M Bool)
    (eps : T) (lastIntr : V2 T) (startIndex : Nat) (found : Nat × List (V2 T)) :
    M (List (ViewData T) × Bool) :=
  match found.2 with
  | [] => .error .indexOutOfBounds
  | first :: _ => do
    let s ← ViewData.fromSlicePoints raw lastIntr startIndex first found.1 eps
    let r ← sliceIfValid raw valid intersects s
    .ok (r, false)

/-- The slice from the last intersect of a segment to the next intersect,
`polyline/internal/pline_offset.rs:892-916` and `1282-1322`.  `isClosed`: wrap around, otherwise run
to the end of the raw offset polyline.  Result: the slices and whether the loop ends here. -/
def nextOffsetSlice (raw : Pline T) (lookup : List (Nat × List (V2 T))) (valid : V2 T → M Bool)
    (intersects : Vertex T → Vertex T → M Bool) (eps : T) (isClosed : Bool) (startIndex : Nat)
    (l : List (V2 T)) : M (List (ViewData T) × Bool) := do
  let nextIndex := raw.nextWrap startIndex
  let lastIntr ← unwrap l.getLast?
  match lookup.find? (fun e => e.1 ≥ nextIndex) with
  | some found => offsetSliceTo raw valid intersects eps lastIntr startIndex found
  | none =>
    if isClosed then do
      let found ← unwrap (lookup.find? (fun e => e.1 ≤ startIndex))
      offsetSliceTo raw valid intersects eps lastIntr startIndex found
    else do
      let rl ← unwrap raw.last
      let s ← ViewData.fromSlicePoints raw lastIntr startIndex rl.pos (raw.vertexCount - 1) eps
      let r ← sliceIfValid raw valid intersects s
      .ok (r, true)

/-- Loop over `intersects_lookup`, `polyline/internal/pline_offset.rs:873-917` and
`1263-1323`. -/
def offsetSliceLoop (raw : Pline T) (lookup : List (Nat × List (V2 T))) (valid : V2 T → M Bool)
    (intersects : Vertex T → Vertex T → M Bool) (eps : T) (isClosed : Bool) :
    List (Nat × List (V2 T)) → M (List (ViewData T))
  | [] => .ok []
  | e :: rest => do
    let same ← sameSegOffsetSlices raw valid intersects eps e.1 e.2
    let next ← nextOffsetSlice raw lookup valid intersects eps isClosed e.1 e.2
    if next.2 then .ok (same ++ next.1)
    else do
      let more ← offsetSliceLoop raw lookup valid intersects eps isClosed rest
      .ok (same ++ next.1 ++ more)

/-- `slices_from_raw_offset`, `polyline/internal/pline_offset.rs:690-920`. -/
def slicesFromRawOffset (env : Env T) (orig raw : Pline T) (origIdx : Index T) (offset : T)
    (opts : OffsetOptions T) : M (List (ViewData T)) :=
  if raw.vertexCount < 2 then .ok []
  else do
    let eps := opts.posEqualEps
    let rawIdx := raw.approxIndex env
    let selfIntrs ← allSelfIntersectsAsBasic raw rawIdx false eps
    let valid := fun pt => pointValidForOffset orig offset origIdx pt eps opts.offsetDistEps
    let intersects := intersectsOriginal orig origIdx eps
    if selfIntrs.isEmpty then do
      let r0 ← raw.at 0
      if !(← valid r0.pos) then .ok []
      else do
        let s ← ViewData.fromEntirePline raw
        .ok [s]
    else do
      let lookup ← buildIntrLookup env raw
        (selfIntrs.flatMap (fun si => [(si.startIndex1, si.point), (si.startIndex2, si.point)]))
      offsetSliceLoop raw lookup valid intersects eps true lookup

/-- One segment of `visit_circle_intersects`, `polyline/internal/pline_offset.rs:967-1019`. -/
def circleIntersectsOfSeg (p : Pline T) (center : V2 T) (radius eps : T) (startIndex : Nat) :
    M (List (Nat × V2 T)) := do
  let v1 ← p.at startIndex
  let v2 ← p.at (p.nextWrap startIndex)
  let validLine := fun (t : T) => !isFalseIntersect t && gt (Scalar.abs t) eps
  let validArc := fun (arcCenter intr : V2 T) =>
    !v1.pos.fuzzyEqEps intr eps
      && pointWithinArcSweep arcCenter v1.pos v2.pos (lt v1.bulge 0) intr eps
  if v1.bulgeIsZero then
    match lineCircleIntr v1.pos v2.pos radius center eps with
    | .noIntersect => .ok []
    | .tangentIntersect t0 =>
      .ok (if validLine t0 then [(startIndex, pointFromParametric v1.pos v2.pos t0)] else [])
    | .twoIntersects t0 t1 =>
      .ok ((if validLine t0 then [(startIndex, pointFromParametric v1.pos v2.pos t0)] else []) ++
        (if validLine t1 then [(startIndex, pointFromParametric v1.pos v2.pos t1)] else []))
  else
    let rc := segArcRadiusAndCenter v1 v2
    match circleCircleIntr rc.1 rc.2 radius center eps with
    | .noIntersect => .ok []
    | .tangentIntersect pt => .ok (if validArc rc.2 pt then [(startIndex, pt)] else [])
    | .twoIntersects pt1 pt2 =>
      .ok ((if validArc rc.2 pt1 then [(startIndex, pt1)] else []) ++
        (if validArc rc.2 pt2 then [(startIndex, pt2)] else []))
    | .overlapping => .ok []

/-- `visit_circle_intersects`, `polyline/internal/pline_offset.rs:923-1020`. -/
def circleIntersects (p : Pline T) (center : V2 T) (radius : T) (idx : Index T) (eps : T) :
    M (List (Nat × V2 T)) := do
  let rs ← (idx.query ⟨center.x - radius, center.y - radius, center.x + radius,
    center.y + radius⟩).mapM (circleIntersectsOfSeg p center radius eps)
  .ok rs.flatten

/-- The intersects of the raw offset polyline with the circles around the ends of an open input,
`polyline/internal/pline_offset.rs:1068-1088`. -/
def endCircleCuts (orig raw : Pline T) (offset : T) (rawIdx : Index T) (eps : T) : M (List (Nat × V2 T)) :=
  if !orig.closed then do
    let r := Scalar.abs offset
    let o0 ← orig.at 0
    let c1 ← circleIntersects raw o0.pos r rawIdx eps
    let ol ← unwrap orig.last
    let c2 ← circleIntersects raw ol.pos r rawIdx eps
    .ok (c1 ++ c2)
  else .ok []

/-- The slice of an open raw offset polyline from its start to the first intersect,
`polyline/internal/pline_offset.rs:1242-1262`. -/
def firstOpenSlice (orig raw : Pline T) (lookup : List (Nat × List (V2 T))) (valid : V2 T → M Bool)
    (intersects : Vertex T → Vertex T → M Bool) (eps : T) : M (List (ViewData T)) :=
  if !orig.closed then do
    let f ← unwrap lookup.head?
    let intr ← match f.2 with
      | x :: _ => (.ok x : M (V2 T))
      | [] => .error .indexOutOfBounds
    let r0 ← raw.at 0
    let s ← ViewData.fromSlicePoints raw r0.pos 0 intr f.1 eps
    sliceIfValid raw valid intersects s
  else .ok []

/-- `slices_from_dual_raw_offsets`, `polyline/internal/pline_offset.rs:1022-1326`. -/
def slicesFromDualRawOffsets (env : Env T) (orig raw dual : Pline T) (origIdx : Index T)
    (offset : T) (opts : OffsetOptions T) : M (List (ViewData T)) :=
  if raw.vertexCount < 2 then .ok []
  else do
    let eps := opts.posEqualEps
    let rawIdx := raw.approxIndex env
    let selfIntrs ← allSelfIntersectsAsBasic raw rawIdx false eps
    let dualIntrs ← findIntersects env raw dual (some rawIdx) eps
    let circles ← endCircleCuts orig raw offset rawIdx eps
    let entries := circles
      ++ selfIntrs.flatMap (fun si => [(si.startIndex1, si.point), (si.startIndex2, si.point)])
      ++ dualIntrs.basic.map (fun i => (i.startIndex1, i.point))
    let valid := fun pt => pointValidForOffset orig offset origIdx pt eps opts.offsetDistEps
    let intersects := intersectsOriginal orig origIdx eps
    if entries.isEmpty then do
      let r0 ← raw.at 0
      if !(← valid r0.pos) then .ok []
      else do
        let s ← ViewData.fromEntirePline raw
        .ok [s]
    else do
      let lookup ← buildIntrLookup env raw entries
      let first ← firstOpenSlice orig raw lookup valid intersects eps
      let more ← offsetSliceLoop raw lookup valid intersects eps orig.closed lookup
      .ok (first ++ more)

/-- closure `get_index_dist`, `polyline/internal/pline_offset.rs:1428-1436`. -/
def sliceIndexDist (origMaxIndex cur : Nat) (s : ViewData T) : Nat :=
  if cur ≤ s.startIndex then s.startIndex - cur
  else origMaxIndex - cur + s.startIndex

/-- What candidates are compared by: closures `get_index_dist` and `end_connects_to_start`,
`polyline/internal/pline_offset.rs:1428-1441` (a missing slice, which would panic, cannot occur for query
results). -/
def stitchKey (slices : List (ViewData T)) (origMaxIndex cur : Nat) (initialStart : V2 T) (eps : T) (i : Nat) : Nat × Bool :=
  match slices[i]? with
  | some s => (sliceIndexDist origMaxIndex cur s, s.endPoint.fuzzyEqEps initialStart eps)
  | none => (0, false)

/-- The comparison of candidates, `polyline/internal/pline_offset.rs:1443-1449`. -/
def stitchCmp (slices : List (ViewData T)) (origMaxIndex cur : Nat) (initialStart : V2 T) (eps : T)
    (a b : Nat) : Ordering :=
  let ka := stitchKey slices origMaxIndex cur initialStart eps a
  let kb := stitchKey slices origMaxIndex cur initialStart eps b
  (compare ka.1 kb.1).then (compare ka.2 kb.2)

/-- Finishing a stitched polyline, `polyline/internal/pline_offset.rs:1452-1463`. -/
def finishStitched (isClosed : Bool) (eps : T) (cur : Pline T) : M (List (Pline T)) :=
  if cur.vertexCount > 1 then do
    let sp ← cur.at 0
    let ep ← unwrap cur.last
    if isClosed && sp.pos.fuzzyEqEps ep.pos eps then do
      let r ← cur.removeLast
      .ok [r.2.setIsClosed true]
    else .ok [cur]
  else .ok []

/-- The test `!visited_slices_idxs[i]` of a query result, `polyline/internal/pline_offset.rs:1414-1418`
and `shape_algorithms/mod.rs:567-571`. -/
def notVisited (visited : List Bool) (i : Nat) : M Bool :=
  match visited[i]? with
  | some b => .ok (!b)
  | none => .error .indexOutOfBounds

/-- The inner loop, `polyline/internal/pline_offset.rs:1397-1470`; `fuel` is
`max_loop_count + 1 - loop_count`. -/
def offsetStitchInner (env : Env T) (raw : Pline T) (idx : Index T) (slices : List (ViewData T))
    (isClosed : Bool) (origMaxIndex : Nat) (opts : OffsetOptions T) (initialStart : V2 T) :
    Nat → Pline T → Nat → List Bool → M (List (Pline T) × List Bool)
  | 0, _, _, _ => .error .unreachable
  | fuel + 1, cur, curIdx, visited =>
    match slices[curIdx]? with
    | none => .error .indexOutOfBounds
    | some s => do
      let sp ← s.toPline raw
      let cur ← cur.extendRemoveRepeat sp opts.posEqualEps
      let hits ← (idx.query ((AABB.ofPoint s.endPoint).grow opts.sliceJoinEps)).filterM
        (notVisited visited)
      let sorted := env.sortBy
        (stitchCmp slices origMaxIndex s.startIndex initialStart opts.posEqualEps) hits
      match sorted with
      | [] => do
        let r ← finishStitched isClosed opts.posEqualEps cur
        .ok (r, visited)
      | j :: _ => do
        let r ← cur.removeLast
        offsetStitchInner env raw idx slices isClosed origMaxIndex opts initialStart fuel r.2 j
          (visited.set j true)

/-- The outer loop, `polyline/internal/pline_offset.rs:1385-1471`. -/
def offsetStitchOuter (env : Env T) (raw : Pline T) (idx : Index T) (slices : List (ViewData T))
    (isClosed : Bool) (origMaxIndex : Nat) (opts : OffsetOptions T) :
    List Nat → List Bool → M (List (Pline T))
  | [], _ => .ok []
  | i :: rest, visited =>
    match visited[i]?, slices[i]? with
    | some true, _ => offsetStitchOuter env raw idx slices isClosed origMaxIndex opts rest visited
    | some false, some s => do
      let r ← offsetStitchInner env raw idx slices isClosed origMaxIndex opts s.updatedStart.pos
        (slices.length + 1) ⟨[], false⟩ i (visited.set i true)
      let more ← offsetStitchOuter env raw idx slices isClosed origMaxIndex opts rest r.2
      .ok (r.1 ++ more)
    | _, _ => .error .indexOutOfBounds

/-- `stitch_slices_together`, `polyline/internal/pline_offset.rs:1328-1474`. -/
def stitchSlicesTogether (env : Env T) (raw : Pline T) (slices : List (ViewData T))
    (isClosed : Bool) (origMaxIndex : Nat) (opts : OffsetOptions T) : M (List (Pline T)) :=
  match slices with
  | [] => .ok []
  | [s] => do
    let sp ← s.toPline raw
    let pl ← sp.createFromRemoveRepeat opts.posEqualEps
    if isClosed then do
      let v0 ← pl.at 0
      let l ← unwrap pl.last
      if v0.pos.fuzzyEqEps l.pos opts.sliceJoinEps then do
        let r ← (pl.setIsClosed true).removeLast
        .ok [r.2]
      else .ok [pl]
    else .ok [pl]
  | _ =>
    let idx := env.build (slices.map (fun s => (AABB.ofPoint s.updatedStart.pos).grow opts.sliceJoinEps))
    offsetStitchOuter env raw idx slices isClosed origMaxIndex opts (List.range slices.length)
      (List.replicate slices.length false)

/-- `parallel_offset`, `polyline/internal/pline_offset.rs:1476-1538`. -/
def parallelOffset (env : Env T) (p : Pline T) (offset : T) (opts : OffsetOptions T) :
    M (List (Pline T)) :=
  if p.vertexCount < 2 then .ok []
  else do
    let idx := opts.aabbIndex.getD (p.approxIndex env)
    let raw ← createRawOffsetPolyline p offset opts.posEqualEps
    if raw.isEmpty then .ok []
    else if p.closed && !opts.handleSelfIntersects then do
      let slices ← slicesFromRawOffset env p raw idx offset opts
      stitchSlicesTogether env raw slices true (raw.vertexCount - 1) opts
    else do
      let dual ← createRawOffsetPolyline p (-offset) opts.posEqualEps
      let slices ← slicesFromDualRawOffsets env p raw dual idx offset opts
      stitchSlicesTogether env raw slices p.closed raw.vertexCount opts

end Cavc
