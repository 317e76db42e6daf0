import Verif.Model.Pline

/-!
# Polyline views

Models `polyline/pline_view.rs` (paths relative to `cavalier_contours/src`).  A view implements
`PlineSource`; all provided methods of that trait only go through `vertex_count`, `is_closed`,
`get` and `at`, so the model materialises a view as the (open) polyline with the same vertices
(`ViewData.toPline`); `C19_view_get` proves that `get` agrees.
-/

namespace Cavc
open Scalar

/-- `PlineViewData`, `polyline/pline_view.rs:138-153`. -/
structure ViewData (T : Type) where
  startIndex : Nat
  endIndexOffset : Nat
  updatedStart : Vertex T
  updatedEndBulge : T
  endPoint : V2 T
  inverted : Bool
deriving DecidableEq, Repr

variable {T : Type} [Scalar T]

namespace ViewData

/-- `vertex_count`, `polyline/pline_view.rs:177-179` and `55-58`. -/
def vertexCount (d : ViewData T) : Nat := d.endIndexOffset + 2

/-- `get_vertex`, `polyline/pline_view.rs:184-250`. -/
def getVertex (d : ViewData T) (source : Pline T) (index : Nat) : M (Option (Vertex T)) :=
  if index ≥ d.vertexCount then .ok none
  else if d.inverted then
    if index = 0 then .ok (some (Vertex.ofV2 d.endPoint (-d.updatedEndBulge)))
    else if index < d.endIndexOffset then do
      let bulgeI := source.fwdIndex d.startIndex (d.endIndexOffset - index)
      let i := source.nextWrap bulgeI
      let v ← source.at i
      let vb ← source.at bulgeI
      .ok (some (v.withBulge (-vb.bulge)))
    else if index = d.endIndexOffset then do
      let i := source.fwdIndex d.startIndex (d.endIndexOffset - index + 1)
      let v ← source.at i
      .ok (some (v.withBulge (-d.updatedStart.bulge)))
    else if index = d.endIndexOffset + 1 then .ok (some (d.updatedStart.withBulge 0))
    else .ok none
  else
    if index = 0 then .ok (some d.updatedStart)
    else if index < d.endIndexOffset then do
      let i := source.fwdIndex d.startIndex index
      let v ← source.at i
      .ok (some v)
    else if index = d.endIndexOffset then do
      let i := source.fwdIndex d.startIndex d.endIndexOffset
      let v ← source.at i
      .ok (some (v.withBulge d.updatedEndBulge))
    else if index = d.endIndexOffset + 1 then .ok (some (Vertex.ofV2 d.endPoint 0))
    else .ok none

/-- `PlineView::at`, `polyline/pline_view.rs:71-73`. -/
def «at» (d : ViewData T) (source : Pline T) (index : Nat) : M (Vertex T) := do
  let v ← d.getVertex source index
  unwrap v

/-- All vertices of the view in order, as an open polyline (`is_closed` of a view is `false`,
`polyline/pline_view.rs:61-63`). -/
def toPline (d : ViewData T) (source : Pline T) : M (Pline T) := do
  let vs ← (List.range d.vertexCount).mapM (fun i => d.at source i)
  .ok ⟨vs, false⟩

/-- `create_on_single_segment`, `polyline/pline_view.rs:255-286`. -/
def createOnSingleSegment (startIndex : Nat) (updatedStart : Vertex T) (endIntersect : V2 T)
    (eps : T) : Option (ViewData T) :=
  if updatedStart.pos.fuzzyEqEps endIntersect eps then none
  else some ⟨startIndex, 0, updatedStart, updatedStart.bulge, endIntersect, false⟩

/-- `create`, `polyline/pline_view.rs:294-349`. -/
def create (source : Pline T) (startIndex : Nat) (endIntersect : V2 T) (intersectIndex : Nat)
    (updatedStart : Vertex T) (traverseCount : Nat) (eps : T) : M (ViewData T) :=
  if traverseCount = 0 then .error .assertFailed
  else do
    let currentVertex ← source.at intersectIndex
    if endIntersect.fuzzyEqEps currentVertex.pos eps then do
      let offset := traverseCount - 1
      let b ← if offset ≠ 0 then do
          let pv ← source.at (source.prevWrap intersectIndex)
          .ok pv.bulge
        else .ok updatedStart.bulge
      .ok ⟨startIndex, offset, updatedStart, b, endIntersect, false⟩
    else do
      let nextIndex := source.nextWrap intersectIndex
      let nv ← source.at nextIndex
      let split := segSplitAtPoint currentVertex nv endIntersect eps
      .ok ⟨startIndex, traverseCount, updatedStart, split.updatedStart.bulge, endIntersect, false⟩

/-- `from_entire_pline`, `polyline/pline_view.rs:359-395`. -/
def fromEntirePline (source : Pline T) : M (ViewData T) :=
  let vc := source.vertexCount
  if vc < 2 then .error .assertFailed
  else if source.closed then do
    let v0 ← source.at 0
    let l ← unwrap source.last
    .ok ⟨0, vc - 1, v0, l.bulge, v0.pos, false⟩
  else do
    let v0 ← source.at 0
    let a ← source.at (vc - 2)
    let b ← source.at (vc - 1)
    .ok ⟨0, vc - 2, v0, a.bulge, b.pos, false⟩

/-- `from_slice_points`, `polyline/pline_view.rs:486-590`. -/
def fromSlicePoints (source : Pline T) (startPoint : V2 T) (startIndex : Nat) (endPoint : V2 T)
    (endIndex : Nat) (eps : T) : M (Option (ViewData T)) := do
  let (startIndex, startPointAtSegEnd) ←
    if !source.closed && decide (startIndex ≥ endIndex) then .ok (startIndex, false)
    else do
      let nextIndex := source.nextWrap startIndex
      let nv ← source.at nextIndex
      if nv.pos.fuzzyEqEps startPoint eps then .ok (nextIndex, true) else .ok (startIndex, false)
  let traverseCount ← do
    let indexDist := source.fwdDist startIndex endIndex
    if indexDist == 0 && source.closed && !startPoint.fuzzyEqEps endPoint eps then do
      let segStart ← source.at startIndex
      let dist1 := distSquared segStart.pos startPoint
      let dist2 := distSquared segStart.pos endPoint
      if lt dist1 dist2 then .ok 0 else .ok source.vertexCount
    else .ok indexDist
  let startV1 ← source.at startIndex
  let startV2 ← source.at (source.nextWrap startIndex)
  let updatedStart : Vertex T :=
    if startPointAtSegEnd then
      if traverseCount = 0 then (segSplitAtPoint startV1 startV2 endPoint eps).updatedStart
      else startV1
    else
      let updatedForStart := (segSplitAtPoint startV1 startV2 startPoint eps).splitVertex
      if traverseCount = 0 then (segSplitAtPoint updatedForStart startV2 endPoint eps).updatedStart
      else updatedForStart
  if traverseCount = 0 then .ok (createOnSingleSegment startIndex updatedStart endPoint eps)
  else do
    let d ← create source startIndex endPoint endIndex updatedStart traverseCount eps
    .ok (some d)

/-- `from_new_start`, `polyline/pline_view.rs:406-477`. -/
def fromNewStart (source : Pline T) (startPoint : V2 T) (startIndex : Nat) (eps : T) :
    M (Option (ViewData T)) :=
  if !source.closed then
    match source.last with
    | none => .ok none
    | some l => fromSlicePoints source startPoint startIndex l.pos (source.vertexCount - 1) eps
  else
    let vc := source.vertexCount
    if vc < 2 then .error .assertFailed
    else do
      let nextIndex := source.nextWrap startIndex
      let nv ← source.at nextIndex
      let startIndex := if nv.pos.fuzzyEqEps startPoint eps then nextIndex else startIndex
      let startV1 ← source.at startIndex
      let startV2 ← source.at (source.nextWrap startIndex)
      let split := segSplitAtPoint startV1 startV2 startPoint eps
      if startV1.pos.fuzzyEqEps startPoint eps then do
        let pv ← source.at (source.prevWrap startIndex)
        .ok (some ⟨startIndex, vc - 1, split.splitVertex, pv.bulge, startPoint, false⟩)
      else
        .ok (some ⟨startIndex, vc, split.splitVertex, split.updatedStart.bulge, startPoint, false⟩)

/-- `ViewDataValidation`, `polyline/pline_view.rs:675-696` (payloads dropped). -/
inductive Validation where
  | sourceHasNoSegments
  | offsetOutOfRange
  | updatedStartNotOnSegment
  | endPointNotOnSegment
  | endPointOnFinalOffsetVertex
  | updatedBulgeDoesNotMatch
  | isValid
deriving DecidableEq, Repr

/-- closure `point_is_on_segment`, `polyline/pline_view.rs:618-628`. -/
def pointIsOnSegment (source : Pline T) (segIndex : Nat) (point : V2 T) : M Bool := do
  let onSegEps : T := ofRatio 1 1000
  let validationEps : T := ofRatio 1 100000
  let v1 ← source.at segIndex
  let v2 ← source.at (source.nextWrap segIndex)
  if point.fuzzyEqEps v1.pos onSegEps || point.fuzzyEqEps v2.pos onSegEps then .ok true
  else .ok ((segClosestPoint v1 v2 point validationEps).fuzzyEqEps point onSegEps)

/-- `validate_for_source`, `polyline/pline_view.rs:601-670`. -/
def validateForSource (d : ViewData T) (source : Pline T) : M Validation :=
  if source.vertexCount < 2 then .ok .sourceHasNoSegments
  else if d.endIndexOffset > source.vertexCount then .ok .offsetOutOfRange
  else do
    let validationEps : T := ofRatio 1 100000
    let onStart ← pointIsOnSegment source d.startIndex d.updatedStart.pos
    if !onStart then .ok .updatedStartNotOnSegment
    else do
      let endIndex := source.fwdIndex d.startIndex d.endIndexOffset
      let onEnd ← pointIsOnSegment source endIndex d.endPoint
      if !onEnd then .ok .endPointNotOnSegment
      else do
        let ev ← source.at endIndex
        if d.endPoint.fuzzyEqEps ev.pos validationEps then .ok .endPointOnFinalOffsetVertex
        else if decide (d.endIndexOffset = 0)
            && !Scalar.fuzzyEqEps d.updatedEndBulge d.updatedStart.bulge validationEps then
          .ok .updatedBulgeDoesNotMatch
        else .ok .isValid

end ViewData
end Cavc
