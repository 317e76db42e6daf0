import Verif.Model.Intersects

/-!
# Boolean operations

Models `polyline/internal/pline_boolean.rs` and the boolean types of `polyline/pline_types.rs`
(paths relative to `cavalier_contours/src`).  `debug_assert`s are not modelled (release build);
`unreachable!` and failing `unwrap`/indexing are.
-/

namespace Cavc
open Scalar

/-- `BooleanOp`, `polyline/pline_types.rs:96-105`. -/
inductive BooleanOp where
  | or
  | and
  | not
  | xor
deriving DecidableEq, Repr

/-- `BooleanResultInfo`, `polyline/pline_types.rs:141-154`. -/
inductive BooleanInfo where
  | invalidInput
  | pline1InsidePline2
  | pline2InsidePline1
  | disjoint
  | overlapping
  | intersected
deriving DecidableEq, Repr

/-- `BooleanPlineSlice`, `polyline/pline_types.rs:517-527`. -/
structure BoolSlice (T : Type) where
  viewData : ViewData T
  sourceIsPline1 : Bool
  overlapping : Bool
deriving DecidableEq, Repr

/-- `BooleanResultPline`, `polyline/pline_types.rs:118-127`. -/
structure BooleanResultPline (T : Type) where
  pline : Pline T
  subslices : List (BoolSlice T)
deriving DecidableEq, Repr

/-- `BooleanResult`, `polyline/pline_types.rs:158-168`. -/
structure BooleanResult (T : Type) where
  posPlines : List (BooleanResultPline T)
  negPlines : List (BooleanResultPline T)
  info : BooleanInfo
deriving DecidableEq, Repr

variable {T : Type} [Scalar T]

/-- `BooleanResult::empty`, `polyline/pline_types.rs:188-190`. -/
def BooleanResult.empty (info : BooleanInfo) : BooleanResult T := ⟨[], [], info⟩

/-- `BooleanResult::from_whole_plines`, `polyline/pline_types.rs:193-213`. -/
def BooleanResult.fromWhole (pos neg : List (Pline T)) (info : BooleanInfo) : BooleanResult T :=
  ⟨pos.map (fun p => ⟨p, []⟩), neg.map (fun p => ⟨p, []⟩), info⟩

/-- `from_open_pline_slice`, `polyline/pline_types.rs:534-551`. -/
def BoolSlice.fromOpen (d : ViewData T) (sourceIsPline1 inverted : Bool) : BoolSlice T :=
  ⟨{ d with inverted := inverted }, sourceIsPline1, false⟩

/-- `from_overlapping`, `polyline/pline_types.rs:554-580`. -/
def BoolSlice.fromOverlapping (s : OverlapSlice T) (inverted : Bool) : BoolSlice T :=
  ⟨⟨s.startIndexes.2, s.viewData.endIndexOffset, s.viewData.updatedStart,
    s.viewData.updatedEndBulge, s.viewData.endPoint, inverted⟩, false, true⟩

/-- `ProcessForBooleanResult`, `polyline/internal/pline_boolean.rs:20-25`. -/
structure BoolProc (T : Type) where
  overlappingSlices : List (OverlapSlice T)
  intersects : List (BasicIntr T)
  orientation1 : Pline.Orientation
  orientation2 : Pline.Orientation

/-- `completely_overlapping`, `polyline/internal/pline_boolean.rs:31-33`. -/
def BoolProc.completelyOverlapping (b : BoolProc T) : Bool :=
  match b.overlappingSlices with
  | [s] => s.isLoop
  | _ => false

/-- `opposing_directions`, `polyline/internal/pline_boolean.rs:35-37`. -/
def BoolProc.opposingDirections (b : BoolProc T) : Bool := b.orientation1 != b.orientation2

/-- `any_intersects`, `polyline/internal/pline_boolean.rs:39-41`. -/
def BoolProc.anyIntersects (b : BoolProc T) : Bool :=
  !b.intersects.isEmpty || !b.overlappingSlices.isEmpty

/-- `process_for_boolean`, `polyline/internal/pline_boolean.rs:44-79`. -/
def processForBoolean (env : Env T) (p1 p2 : Pline T) (idx1 : Index T) (eps : T) :
    M (BoolProc T) := do
  let intrs ← findIntersects env p1 p2 (some idx1) eps
  let ov ← sortAndJoin env intrs.overlapping p1 p2 eps
  .ok ⟨ov, intrs.basic, p1.orientation, p2.orientation⟩

/-- `SlicePoint`, `polyline/internal/pline_boolean.rs:82-85`. -/
structure SlicePoint (T : Type) where
  pos : V2 T
  isStartOfOverlap : Bool
deriving DecidableEq, Repr

/-- `BTreeMap<usize, Vec<_>>` as an association list with ascending keys;
`entry(k).or_default().push(v)`. -/
def mapPush {α : Type} (k : Nat) (v : α) : List (Nat × List α) → List (Nat × List α)
  | [] => [(k, [v])]
  | (k', vs) :: rest =>
    if k < k' then (k, [v]) :: (k', vs) :: rest
    else if k = k' then (k', vs ++ [v]) :: rest
    else (k', vs) :: mapPush k v rest

/-- `BTreeMap::get`. -/
def mapGet {α : Type} (k : Nat) : List (Nat × List α) → Option (List α)
  | [] => none
  | (k', vs) :: rest => if k = k' then some vs else mapGet k rest

/-- closure `adjust_sp_ep_indexes` applied to one index,
`polyline/internal/pline_boolean.rs:117-129`. -/
def adjustIndex (p : Pline T) (eps : T) (idx : Nat) (pt : V2 T) : M Nat := do
  let next := p.nextWrap idx
  let v ← p.at next
  .ok (if pt.fuzzyEqEps v.pos eps then next else idx)

/-- The entries of `intersects_lookup` contributed by one overlapping slice,
`polyline/internal/pline_boolean.rs:140-155` and `165-184`. -/
def overlapEntries (p : Pline T) (eps : T) (useSecond : Bool) (s : OverlapSlice T) :
    M (List (Nat × SlicePoint T)) := do
  let sp := s.viewData.updatedStart.pos
  let ep := s.viewData.endPoint
  let spIdx ← adjustIndex p eps (if useSecond then s.startIndexes.2 else s.startIndexes.1) sp
  let epIdx ← adjustIndex p eps (if useSecond then s.endIndexes.2 else s.endIndexes.1) ep
  let spIsStart := useSecond || !s.opposingDirections
  .ok [(spIdx, ⟨sp, spIsStart⟩), (epIdx, ⟨ep, !spIsStart⟩)]

/-- All pushes to `intersects_lookup` in order, `polyline/internal/pline_boolean.rs:131-185`. -/
def sliceEntries (p : Pline T) (b : BoolProc T) (useSecond : Bool) (eps : T) :
    M (List (Nat × SlicePoint T)) := do
  let basics := b.intersects.map
    (fun i => (if useSecond then i.startIndex2 else i.startIndex1, (⟨i.point, false⟩ : SlicePoint T)))
  let ovs ← b.overlappingSlices.mapM (overlapEntries p eps useSecond)
  .ok (basics ++ ovs.flatten)

/-- Sorting the points of one segment by distance from its start,
`polyline/internal/pline_boolean.rs:188-195`. -/
def sortSlicePoints (env : Env T) (p : Pline T) (e : Nat × List (SlicePoint T)) :
    M (Nat × List (SlicePoint T)) := do
  let v ← p.at e.1
  .ok (e.1, env.sortBy (fun a b =>
    totalCmp (distSquared a.pos v.pos) (distSquared b.pos v.pos)) e.2)

/-- Building `intersects_lookup`, `polyline/internal/pline_boolean.rs:114-195`. -/
def sliceLookup (env : Env T) (p : Pline T) (b : BoolProc T) (useSecond : Bool) (eps : T) :
    M (List (Nat × List (SlicePoint T))) := do
  let es ← sliceEntries p b useSecond eps
  (es.foldl (fun m e => mapPush e.1 e.2 m) []).mapM (sortSlicePoints env p)

/-- Slices between consecutive intersects on one segment,
`polyline/internal/pline_boolean.rs:205-249`; `prev` is `intrs_list[i - 1]`. -/
def sameSegSlices (useSecond : Bool) (pred : V2 T → Bool) (eps : T) (startIndex : Nat)
    (endVertex : Vertex T) : Vertex T → SlicePoint T → List (SlicePoint T) → List (BoolSlice T)
  | _, _, [] => []
  | prevVertex, prev, cur :: rest =>
    let split := segSplitAtPoint prevVertex endVertex cur.pos eps
    let more := sameSegSlices useSecond pred eps startIndex endVertex split.splitVertex cur rest
    if prev.isStartOfOverlap then more
    else if split.updatedStart.pos.fuzzyEqEps split.splitVertex.pos eps then more
    else if !pred (segMidpoint split.updatedStart split.splitVertex) then more
    else match ViewData.createOnSingleSegment startIndex split.updatedStart
        split.splitVertex.pos eps with
      | some s => BoolSlice.fromOpen s (!useSecond) false :: more
      | none => more

/-- The loop searching for the next intersect, `polyline/internal/pline_boolean.rs:268-311`;
`fuel` is `max_loop_count + 1 - loop_count`. -/
def nextSliceLoop (p : Pline T) (lookup : List (Nat × List (SlicePoint T))) (useSecond : Bool)
    (pred : V2 T → Bool) (eps : T) (startIndex : Nat) (startVertex : Vertex T) :
    Nat → Nat → Nat → M (List (BoolSlice T))
  | 0, _, _ => .error .unreachable
  | fuel + 1, loopCount, index =>
    let loopCount := loopCount + 1
    match mapGet index lookup with
    | some nextList => do
      let ip ← match nextList with
        | x :: _ => .ok x.pos
        | [] => .error .indexOutOfBounds
      let d ← ViewData.create p startIndex ip index startVertex loopCount eps
      let s := BoolSlice.fromOpen d (!useSecond) false
      let nv ← p.at (p.nextWrap s.viewData.startIndex)
      .ok (if pred (segMidpoint s.viewData.updatedStart nv) then [s] else [])
    | none =>
      nextSliceLoop p lookup useSecond pred eps startIndex startVertex fuel loopCount
        (p.nextWrap index)

/-- All slices starting at the intersects of one segment,
`polyline/internal/pline_boolean.rs:197-312`. -/
def segSlices (p : Pline T) (lookup : List (Nat × List (SlicePoint T))) (useSecond : Bool)
    (pred : V2 T → Bool) (eps : T) (e : Nat × List (SlicePoint T)) : M (List (BoolSlice T)) := do
  let nextIndex := p.nextWrap e.1
  let startVertex ← p.at e.1
  let endVertex ← p.at nextIndex
  match e.2 with
  | [] => .error .indexOutOfBounds
  | first :: rest =>
    let firstSplit := segSplitAtPoint startVertex endVertex first.pos eps
    let same := sameSegSlices useSecond pred eps e.1 endVertex firstSplit.splitVertex first rest
    let lastIntr := (first :: rest).getLast (by simp)
    if lastIntr.isStartOfOverlap then .ok same
    else do
      let split := segSplitAtPoint startVertex endVertex lastIntr.pos eps
      let next ← nextSliceLoop p lookup useSecond pred eps e.1 split.splitVertex
        (p.vertexCount + 1) 0 nextIndex
      .ok (same ++ next)

/-- `slice_at_intersects`, `polyline/internal/pline_boolean.rs:102-313`. -/
def sliceAtIntersects (env : Env T) (p : Pline T) (b : BoolProc T) (useSecond : Bool)
    (pred : V2 T → Bool) (eps : T) : M (List (BoolSlice T)) := do
  let lookup ← sliceLookup env p b useSecond eps
  let ss ← lookup.mapM (segSlices p lookup useSecond pred eps)
  .ok ss.flatten

/-- `PrunedSlices`, `polyline/internal/pline_boolean.rs:317-330`. -/
structure PrunedSlices (T : Type) where
  slices : List (BoolSlice T)
  startOf2 : Nat
  startOf1Overlap : Nat
  startOf2Overlap : Nat

/-- `s.view_data.inverted_direction = true`, `polyline/internal/pline_boolean.rs:397`. -/
def BoolSlice.setInverted (s : BoolSlice T) : BoolSlice T :=
  { s with viewData := { s.viewData with inverted := true } }

/-- `prune_slices`, `polyline/internal/pline_boolean.rs:332-406`. -/
def pruneSlices (env : Env T) (p1 p2 : Pline T) (b : BoolProc T) (pred1 pred2 : V2 T → Bool)
    (setOpposing : Bool) (eps : T) : M (PrunedSlices T) := do
  let s1 ← sliceAtIntersects env p1 b false pred1 eps
  let s2 ← sliceAtIntersects env p2 b true pred2 eps
  let o1 := b.overlappingSlices.map (fun s => BoolSlice.fromOverlapping s s.opposingDirections)
  let o2 := b.overlappingSlices.map (fun s => BoolSlice.fromOverlapping s false)
  let s1' := if setOpposing != b.opposingDirections then s1.map BoolSlice.setInverted else s1
  .ok ⟨s1' ++ s2 ++ o1 ++ o2, s1.length, s1.length + s2.length,
    s1.length + s2.length + o1.length⟩

/-- `StitchSelector::select`: `none` = discard; the argument list is non-empty
(`polyline/internal/pline_boolean.rs:407-409`). -/
abbrev Selector := Nat → List Nat → M (Option Nat)

/-- `available_idx[0]`. -/
def firstAvailable : List Nat → M (Option Nat)
  | [] => .error .indexOutOfBounds
  | i :: _ => .ok (some i)

/-- `idx_for_pline1_slice`, `polyline/internal/pline_boolean.rs:504-509`. -/
def idxForPline1 (startOf2 : Nat) (avail : List Nat) : Option Nat :=
  avail.find? (fun i => i < startOf2)

/-- `idx_for_pline2_slice`, `polyline/internal/pline_boolean.rs:511-515`. -/
def idxForPline2 (startOf2 startOf1Overlap : Nat) (avail : List Nat) : Option Nat :=
  avail.find? (fun i => i ≥ startOf2 && i < startOf1Overlap)

/-- `Option::or_else` with a lazily evaluated alternative that may panic. -/
def orElseM (o : Option Nat) (alt : Unit → M (Option Nat)) : M (Option Nat) :=
  match o with
  | some i => .ok (some i)
  | none => alt ()

/-- `OrAndStitchSelector::select`, `polyline/internal/pline_boolean.rs:441-474`. -/
def orAndSelector (startOf2 startOf1Overlap startOf2Overlap : Nat) : Selector := fun cur avail =>
  let isPline1 := cur < startOf2 || (cur ≥ startOf1Overlap && cur < startOf2Overlap)
  if isPline1 then
    orElseM (idxForPline2 startOf2 startOf1Overlap avail) fun _ =>
      orElseM (idxForPline1 startOf2 avail) fun _ => firstAvailable avail
  else
    orElseM (idxForPline1 startOf2 avail) fun _ =>
      orElseM (idxForPline2 startOf2 startOf1Overlap avail) fun _ => firstAvailable avail

/-- `NotXorStitchSelector::select`, `polyline/internal/pline_boolean.rs:519-552`. -/
def notXorSelector (startOf2 startOf1Overlap startOf2Overlap : Nat) : Selector := fun cur avail =>
  if cur ≥ startOf1Overlap then
    if cur < startOf2Overlap then
      orElseM (idxForPline2 startOf2 startOf1Overlap avail) fun _ =>
        .ok (idxForPline1 startOf2 avail)
    else
      orElseM (idxForPline1 startOf2 avail) fun _ =>
        .ok (idxForPline2 startOf2 startOf1Overlap avail)
  else if cur < startOf2 then
    orElseM (idxForPline2 startOf2 startOf1Overlap avail) fun _ => firstAvailable avail
  else
    orElseM (idxForPline1 startOf2 avail) fun _ => firstAvailable avail

/-- Start point of a slice as put in the index, `polyline/internal/pline_boolean.rs:582-586`. -/
def BoolSlice.startPoint (s : BoolSlice T) : V2 T :=
  if s.viewData.inverted then s.viewData.endPoint else s.viewData.updatedStart.pos

/-- `slice.view(source)`, `polyline/internal/pline_boolean.rs:616-630`. -/
def BoolSlice.toPline (s : BoolSlice T) (p1 p2 : Pline T) : M (Pline T) :=
  s.viewData.toPline (if s.sourceIsPline1 then p1 else p2)

/-- box of a point -/
def AABB.ofPoint (p : V2 T) : AABB T := ⟨p.x, p.y, p.x, p.y⟩

/-- closure `close_pline`, `polyline/internal/pline_boolean.rs:595-611`. -/
def closePline (pl : Pline T) (subs : List (BoolSlice T)) : M (List (BooleanResultPline T)) :=
  if pl.vertexCount < 3 then .ok []
  else do
    let r ← pl.removeLast
    .ok [⟨r.2.setIsClosed true, subs⟩]

/-- closure `query_visitor`, `polyline/internal/pline_boolean.rs:657-662`: whether index `i` is
kept. -/
def stitchHit (beginning : Nat) (visited : List Bool) (i : Nat) : M Bool :=
  if i == beginning then .ok true
  else match visited[i]? with
    | some b => .ok (!b)
    | none => .error .indexOutOfBounds

/-- The inner loop of `stitch_slices_into_closed_polylines`,
`polyline/internal/pline_boolean.rs:647-702`; `fuel` is `max_loop_count + 1 - loop_count`.
Result: the polyline produced (if any) and the updated `visited_slice_idx`. -/
def stitchInner (p1 p2 : Pline T) (idx : Index T) (slices : List (BoolSlice T)) (sel : Selector)
    (eps : T) (beginning : Nat) :
    Nat → Pline T → List (BoolSlice T) → Nat → List Bool →
      M (List (BooleanResultPline T) × List Bool)
  | 0, _, _, _, _ => .error .unreachable
  | fuel + 1, cur, subs, curIdx, visited => do
    let l ← unwrap cur.last
    let hits ← (idx.query ((AABB.ofPoint l.pos).grow eps)).filterM (stitchHit beginning visited)
    if hits.isEmpty then .ok ([], visited)
    else do
      let choice ← sel curIdx hits
      match choice with
      | none => .ok ([], visited)
      | some j =>
        if j = beginning then do
          let r ← closePline cur subs
          .ok (r, visited)
        else match slices[j]? with
          | none => .error .indexOutOfBounds
          | some s => do
            let r ← cur.removeLast
            let sp ← s.toPline p1 p2
            let cur' ← r.2.extendRemoveRepeat sp eps
            stitchInner p1 p2 idx slices sel eps beginning fuel cur' (subs ++ [s]) j
              (visited.set j true)

/-- The outer loop, `polyline/internal/pline_boolean.rs:633-703`. -/
def stitchOuter (p1 p2 : Pline T) (idx : Index T) (slices : List (BoolSlice T)) (sel : Selector)
    (eps : T) : List Nat → List Bool → M (List (BooleanResultPline T))
  | [], _ => .ok []
  | i :: rest, visited =>
    match visited[i]?, slices[i]? with
    | some true, _ => stitchOuter p1 p2 idx slices sel eps rest visited
    | some false, some s => do
      let sp ← s.toPline p1 p2
      let cur ← sp.createFromRemoveRepeat eps
      let r ← stitchInner p1 p2 idx slices sel eps i (slices.length + 1) cur [s] i
        (visited.set i true)
      let more ← stitchOuter p1 p2 idx slices sel eps rest r.2
      .ok (r.1 ++ more)
    | _, _ => .error .indexOutOfBounds

/-- `stitch_slices_into_closed_polylines`, `polyline/internal/pline_boolean.rs:558-706`. -/
def stitchSlices (env : Env T) (slices : List (BoolSlice T)) (p1 p2 : Pline T) (sel : Selector)
    (eps : T) : M (List (BooleanResultPline T)) :=
  if slices.isEmpty then .ok []
  else
    let idx := env.build (slices.map (fun s => AABB.ofPoint s.startPoint))
    stitchOuter p1 p2 idx slices sel eps (List.range slices.length)
      (List.replicate slices.length false)

/-- closure `point_in_pline`, `polyline/internal/pline_boolean.rs:741-742`. -/
def pointIn (p : Pline T) (pt : V2 T) : Bool := p.windingNumber pt != 0

/-- prune then stitch with the `Or`/`And` selector. -/
def runOrAnd (env : Env T) (p1 p2 : Pline T) (b : BoolProc T) (pred1 pred2 : V2 T → Bool)
    (eps : T) : M (List (BooleanResultPline T)) := do
  let ps ← pruneSlices env p1 p2 b pred1 pred2 false eps
  stitchSlices env ps.slices p1 p2 (orAndSelector ps.startOf2 ps.startOf1Overlap ps.startOf2Overlap)
    eps

/-- prune then stitch with the `Not`/`Xor` selector. -/
def runNotXor (env : Env T) (p1 p2 : Pline T) (b : BoolProc T) (pred1 pred2 : V2 T → Bool)
    (eps : T) : M (List (BooleanResultPline T)) := do
  let ps ← pruneSlices env p1 p2 b pred1 pred2 true eps
  stitchSlices env ps.slices p1 p2
    (notXorSelector ps.startOf2 ps.startOf1Overlap ps.startOf2Overlap) eps

/-- `polyline_boolean`, `polyline/internal/pline_boolean.rs:709-992`. -/
def polylineBoolean (env : Env T) (p1 p2 : Pline T) (op : BooleanOp) (aabbIndex1 : Option (Index T))
    (eps : T) : M (BooleanResult T) :=
  if p1.vertexCount < 2 || !p1.closed || p2.vertexCount < 2 || !p2.closed then
    .ok (BooleanResult.empty .invalidInput)
  else do
    let idx1 := aabbIndex1.getD (p1.approxIndex env)
    let b ← processForBoolean env p1 p2 idx1 eps
    let a0 ← p1.at 0
    let b0 ← p2.at 0
    let in12 := pointIn p2 a0.pos
    let in21 := pointIn p1 b0.pos
    match op with
    | .or =>
      if b.completelyOverlapping then .ok (.fromWhole [p2] [] .overlapping)
      else if !b.anyIntersects then
        if in12 then .ok (.fromWhole [p2] [] .pline1InsidePline2)
        else if in21 then .ok (.fromWhole [p1] [] .pline2InsidePline1)
        else .ok (.fromWhole [p1, p2] [] .disjoint)
      else do
        let rem ← runOrAnd env p1 p2 b (fun pt => !pointIn p2 pt) (fun pt => !pointIn p1 pt) eps
        .ok ⟨rem.filter (fun r => r.pline.orientation == b.orientation2),
          rem.filter (fun r => r.pline.orientation != b.orientation2), .intersected⟩
    | .and =>
      if b.completelyOverlapping then .ok (.fromWhole [p2] [] .overlapping)
      else if !b.anyIntersects then
        if in12 then .ok (.fromWhole [p1] [] .pline1InsidePline2)
        else if in21 then .ok (.fromWhole [p2] [] .pline2InsidePline1)
        else .ok (.empty .disjoint)
      else do
        let pos ← runOrAnd env p1 p2 b (pointIn p2) (pointIn p1) eps
        .ok ⟨pos, [], .intersected⟩
    | .not =>
      if b.completelyOverlapping then .ok (.empty .overlapping)
      else if !b.anyIntersects then
        if in12 then .ok (.empty .pline1InsidePline2)
        else if in21 then .ok (.fromWhole [p1] [p2] .pline2InsidePline1)
        else .ok (.fromWhole [p1] [] .disjoint)
      else do
        let pos ← runNotXor env p1 p2 b (fun pt => !pointIn p2 pt) (pointIn p1) eps
        .ok ⟨pos, [], .intersected⟩
    | .xor =>
      if b.completelyOverlapping then .ok (.empty .overlapping)
      else if !b.anyIntersects then
        if in12 then .ok (.fromWhole [p2] [p1] .pline1InsidePline2)
        else if in21 then .ok (.fromWhole [p1] [p2] .pline2InsidePline1)
        else .ok (.fromWhole [p1, p2] [] .disjoint)
      else do
        let r1 ← runNotXor env p1 p2 b (fun pt => !pointIn p2 pt) (pointIn p1) eps
        let r2 ← runNotXor env p1 p2 b (pointIn p2) (fun pt => !pointIn p1 pt) eps
        .ok ⟨r1 ++ r2, [], .intersected⟩

end Cavc
