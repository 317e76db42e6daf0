import Verif.Model.Offset

/-!
# Shapes

Models `shape_algorithms/mod.rs` (paths relative to `cavalier_contours/src`).
-/

namespace Cavc
open Scalar

/-- `IndexedPolyline`, `shape_algorithms/mod.rs:36-39`; `boxes` are the boxes the index was built
from (they determine `spatial_index.bounds()`). -/
structure IndexedPline (T : Type) where
  pline : Pline T
  boxes : List (AABB T)
  index : Index T

/-- `Shape`, `shape_algorithms/mod.rs:73-83`; `bounds` are the boxes `plines_index` was built
from. -/
structure Shape (T : Type) where
  ccw : List (IndexedPline T)
  cw : List (IndexedPline T)
  bounds : List (AABB T)
  plinesIndex : Index T

/-- `ShapeOffsetOptions`, `shape_algorithms/mod.rs:87-96`. -/
structure ShapeOffsetOptions (T : Type) where
  posEqualEps : T
  offsetDistEps : T
  sliceJoinEps : T

/-- `OffsetLoop`, `shape_algorithms/mod.rs:17-20`. -/
structure OffsetLoop (T : Type) where
  parent : Nat
  ip : IndexedPline T

/-- `SlicePointSet`, `shape_algorithms/mod.rs:654-658`. -/
structure SlicePointSet (T : Type) where
  loop1 : Nat
  loop2 : Nat
  points : List (BasicIntr T)

/-- `DissectionPoint`, `shape_algorithms/mod.rs:661-664`. -/
structure DissectionPoint (T : Type) where
  segIdx : Nat
  pos : V2 T

/-- `DissectedSlice`, `shape_algorithms/mod.rs:667-670`. -/
structure DissectedSlice (T : Type) where
  source : Nat
  vdata : ViewData T

variable {T : Type} [Scalar T]

/-- Smallest box containing two boxes. -/
def AABB.union (a b : AABB T) : AABB T :=
  ⟨Scalar.min a.minX b.minX, Scalar.min a.minY b.minY, Scalar.max a.maxX b.maxX,
    Scalar.max a.maxY b.maxY⟩

/-- `StaticAABB2DIndex::bounds` (external crate): `None` for an empty index, else the union of all
boxes. -/
def boundsOf : List (AABB T) → Option (AABB T)
  | [] => none
  | b :: bs => some (bs.foldl AABB.union b)

/-- `IndexedPolyline::new`, `shape_algorithms/mod.rs:45-51`. -/
def IndexedPline.new (env : Env T) (p : Pline T) : IndexedPline T :=
  ⟨p, p.approxAabbBoxes.2, p.approxIndex env⟩

/-- `parallel_offset_for_shape`, `shape_algorithms/mod.rs:53-67`. -/
def IndexedPline.parallelOffset (env : Env T) (ip : IndexedPline T) (offset : T)
    (o : ShapeOffsetOptions T) : M (List (Pline T)) :=
  Cavc.parallelOffset env ip.pline offset
    ⟨some ip.index, false, o.posEqualEps, o.sliceJoinEps, o.offsetDistEps⟩

/-- closure `add_all_bounds`, `shape_algorithms/mod.rs:144-153`, `246-256`, `615-624`. -/
def allBounds (ps : List (IndexedPline T)) : M (List (AABB T)) :=
  ps.mapM (fun p => unwrap (boundsOf p.boxes))

/-- Building a `Shape` from its polylines with the index of bounds. -/
def Shape.build (env : Env T) (ccw cw : List (IndexedPline T)) : M (Shape T) := do
  let b1 ← allBounds ccw
  let b2 ← allBounds cw
  .ok ⟨ccw, cw, b1 ++ b2, env.build (b1 ++ b2)⟩

/-- `Shape::from_plines`, `shape_algorithms/mod.rs:126-166`. -/
def Shape.fromPlines (env : Env T) (plines : List (Pline T)) : M (Shape T) :=
  let ps := plines.filter (fun p => p.vertexCount > 1)
  let ccw := (ps.filter (fun p => p.orientation == .counterClockwise)).map (IndexedPline.new env)
  let cw := (ps.filter (fun p => p.orientation != .counterClockwise)).map (IndexedPline.new env)
  Shape.build env ccw cw

/-- `Shape::empty`, `shape_algorithms/mod.rs:170-176`. -/
def Shape.empty (env : Env T) : Shape T := ⟨[], [], [], env.build []⟩

/-- Offset loops of one input polyline, `shape_algorithms/mod.rs:187-209` (`isCcw`) and `211-233`:
those of area `< 0` second. -/
def offsetLoopsOf (env : Env T) (offset : T) (o : ShapeOffsetOptions T) (isCcw : Bool)
    (parent : Nat) (ip : IndexedPline T) : M (List (OffsetLoop T) × List (OffsetLoop T)) := do
  let offs ← ip.parallelOffset env offset o
  let kept := offs.filter (fun p =>
    !(if isCcw then gt offset 0 && lt p.area 0 else lt offset 0 && gt p.area 0))
  .ok ((kept.filter (fun p => !lt p.area 0)).map (fun p => ⟨parent, .new env p⟩),
    (kept.filter (fun p => lt p.area 0)).map (fun p => ⟨parent, .new env p⟩))

/-- All offset loops, `shape_algorithms/mod.rs:184-233`. -/
def offsetLoops (env : Env T) (s : Shape T) (offset : T) (o : ShapeOffsetOptions T) :
    M (List (OffsetLoop T) × List (OffsetLoop T)) := do
  let l1 ← s.ccw.zipIdx.mapM (fun (pi : IndexedPline T × Nat) =>
    offsetLoopsOf env offset o true pi.2 pi.1)
  let l2 ← s.cw.zipIdx.mapM (fun (pi : IndexedPline T × Nat) =>
    offsetLoopsOf env offset o false (s.ccw.length + pi.2) pi.1)
  .ok (((l1 ++ l2).map Prod.fst).flatten, ((l1 ++ l2).map Prod.snd).flatten)

/-- State of the intersect search between loops, `shape_algorithms/mod.rs:268-272`. -/
structure LoopPairState (T : Type) where
  visited : List (Nat × Nat)
  sets : List (SlicePointSet T)

/-- One candidate pair of loops, `shape_algorithms/mod.rs:286-357`. -/
def loopPair (env : Env T) (loops : List (OffsetLoop T)) (eps : T) (i : Nat) (l1 : OffsetLoop T)
    (st : LoopPairState T) (j : Nat) : M (LoopPairState T) :=
  if i = j then .ok st
  else if st.visited.contains (j, i) then .ok st
  else do
    let visited := (i, j) :: st.visited
    let l2 ← match loops[j]? with
      | some l => (.ok l : M (OffsetLoop T))
      | none => .error .indexOutOfBounds
    let intrs ← findIntersects env l1.ip.pline l2.ip.pline (some l1.ip.index) eps
    if intrs.basic.isEmpty && intrs.overlapping.isEmpty then .ok ⟨visited, st.sets⟩
    else
      let pts := intrs.basic ++ intrs.overlapping.flatMap (fun (o : OverlapIntr T) =>
        [(⟨o.startIndex1, o.startIndex2, o.point1⟩ : BasicIntr T),
         ⟨o.startIndex1, o.startIndex2, o.point2⟩])
      .ok ⟨visited, st.sets ++ [⟨i, j, pts⟩]⟩

/-- The search over all loops, `shape_algorithms/mod.rs:274-358`. -/
def findLoopIntersects (env : Env T) (loops : List (OffsetLoop T)) (loopsIndex : Index T) (eps : T) :
    M (List (SlicePointSet T)) := do
  let st ← loops.zipIdx.foldlM (fun (st : LoopPairState T) (li : OffsetLoop T × Nat) => do
    let b ← unwrap (boundsOf li.1.ip.boxes)
    (loopsIndex.query b).foldlM (loopPair env loops eps li.2 li.1) st) ⟨[], []⟩
  .ok st.sets

/-- `slice_points_lookup.get(&loop_idx)` together with gathering the points,
`shape_algorithms/mod.rs:346-356` and `416-433`: the points of all sets that involve the loop, in
order of the sets; `none` if there is no such set. -/
def loopPoints (sets : List (SlicePointSet T)) (loopIdx : Nat) : Option (List (DissectionPoint T)) :=
  let mine := sets.filter (fun s => s.loop1 == loopIdx || s.loop2 == loopIdx)
  if mine.isEmpty then none
  else some (mine.flatMap (fun s => s.points.map (fun p =>
    ⟨if s.loop1 == loopIdx then p.startIndex1 else p.startIndex2, p.point⟩)))

/-- The comparison of points along a loop, `shape_algorithms/mod.rs:436-445`. -/
def dissectionCmp (p : Pline T) (a b : DissectionPoint T) : Ordering :=
  (compare a.segIdx b.segIdx).then
    (match p.get a.segIdx with
     | some s => totalCmp (distSquared a.pos s.pos) (distSquared b.pos s.pos)
     | none => .eq)

/-- The loop over the input polylines in `is_slice_valid`, `shape_algorithms/mod.rs:387-407`. -/
def shapePointValid (inputs : List (IndexedPline T)) (offset : T) (o : ShapeOffsetOptions T)
    (parent : Nat) (midpoint : V2 T) : List Nat → M Bool
  | [] => .ok true
  | i :: rest =>
    if i = parent then shapePointValid inputs offset o parent midpoint rest
    else match inputs[i]? with
      | none => .error .indexOutOfBounds
      | some ip => do
        let v ← pointValidForOffset ip.pline offset ip.index midpoint o.posEqualEps o.offsetDistEps
        if v then shapePointValid inputs offset o parent midpoint rest else .ok false

/-- closure `is_slice_valid`, `shape_algorithms/mod.rs:378-410`. -/
def shapeSliceValid (inputs : List (IndexedPline T)) (offset : T) (o : ShapeOffsetOptions T)
    (d : ViewData T) (lp : Pline T) (parent : Nat) : M Bool := do
  let a ← d.at lp 0
  let b ← d.at lp 1
  shapePointValid inputs offset o parent (segMidpoint a b) (List.range inputs.length)

/-- One slice of a loop, if it exists and is valid, `shape_algorithms/mod.rs:465-503`. -/
def dissectSlice (inputs : List (IndexedPline T)) (offset : T) (o : ShapeOffsetOptions T)
    (l : OffsetLoop T) (loopIdx : Nat) (a b : DissectionPoint T) : M (List (DissectedSlice T)) := do
  let d ← ViewData.fromSlicePoints l.ip.pline a.pos a.segIdx b.pos b.segIdx o.posEqualEps
  match d with
  | none => .ok []
  | some d => do
    let v ← shapeSliceValid inputs offset o d l.ip.pline l.parent
    .ok (if v then [⟨loopIdx, d⟩] else [])

/-- The slices (or the whole loop) kept of one loop, `shape_algorithms/mod.rs:412-522`.
First component: slices; second: whether the whole loop is moved to the result. -/
def dissectLoop (env : Env T) (inputs : List (IndexedPline T)) (offset : T)
    (o : ShapeOffsetOptions T) (sets : List (SlicePointSet T)) (l : OffsetLoop T) (loopIdx : Nat) :
    M (List (DissectedSlice T) × Bool) := do
  let pl := l.ip.pline
  match loopPoints sets loopIdx with
  | some pts =>
    let sorted := env.sortBy (dissectionCmp pl) pts
    if sorted.length = 1 then do
      let d ← ViewData.fromEntirePline pl
      let v ← shapeSliceValid inputs offset o d pl l.parent
      .ok (if v then [⟨loopIdx, d⟩] else [], false)
    else do
      let ss ← (windows2 sorted).mapM (fun (ab : DissectionPoint T × DissectionPoint T) =>
        dissectSlice inputs offset o l loopIdx ab.1 ab.2)
      let pl1 ← unwrap sorted.getLast?
      let pl2 ← match sorted with
        | x :: _ => (.ok x : M (DissectionPoint T))
        | [] => .error .indexOutOfBounds
      let s ← dissectSlice inputs offset o l loopIdx pl1 pl2
      .ok (ss.flatten ++ s, false)
  | none => do
    let d ← ViewData.fromEntirePline pl
    let v ← shapeSliceValid inputs offset o d pl l.parent
    .ok ([], v)

/-- The inner stitching loop, `shape_algorithms/mod.rs:550-608`; `fuel` is
`max_loop_count + 1 - loop_count`. -/
def shapeStitchInner (loops : List (OffsetLoop T)) (idx : Index T)
    (slices : List (DissectedSlice T)) (o : ShapeOffsetOptions T) :
    Nat → Pline T → Nat → List Bool → M (Pline T × List Bool)
  | 0, _, _, _ => .error .unreachable
  | fuel + 1, cur, curIdx, visited =>
    match slices[curIdx]? with
    | none => .error .indexOutOfBounds
    | some s =>
      match loops[s.source]? with
      | none => .error .indexOutOfBounds
      | some l => do
        let sp ← s.vdata.toPline l.ip.pline
        let cur ← cur.extendRemoveRepeat sp o.posEqualEps
        let hits ← (idx.query ((AABB.ofPoint s.vdata.endPoint).grow o.sliceJoinEps)).filterM
          (notVisited visited)
        match hits with
        | [] =>
          if cur.vertexCount > 2 then do
            let r ← cur.removeLast
            .ok (r.2.setIsClosed true, visited)
          else .ok (cur, visited)
        | h :: _ =>
          let j := (hits.find? (fun i =>
            match slices[i]? with
            | some si => si.source == s.source
            | none => false)).getD h
          shapeStitchInner loops idx slices o fuel cur j (visited.set j true)

/-- The outer stitching loop, `shape_algorithms/mod.rs:540-609`. -/
def shapeStitchOuter (loops : List (OffsetLoop T)) (idx : Index T)
    (slices : List (DissectedSlice T)) (o : ShapeOffsetOptions T) :
    List Nat → List Bool → M (List (Pline T))
  | [], _ => .ok []
  | i :: rest, visited =>
    match visited[i]? with
    | some true => shapeStitchOuter loops idx slices o rest visited
    | some false => do
      let r ← shapeStitchInner loops idx slices o (slices.length + 1) ⟨[], false⟩ i
        (visited.set i true)
      let more ← shapeStitchOuter loops idx slices o rest r.2
      .ok (r.1 :: more)
    | none => .error .indexOutOfBounds

/-- `Shape::parallel_offset`, `shape_algorithms/mod.rs:178-637`.  `std::mem::take` of whole loops
(lines 511-519) is modelled by copying: a taken loop has no slices, so its emptied remainder is
never read. -/
def Shape.parallelOffset (env : Env T) (s : Shape T) (offset : T) (o : ShapeOffsetOptions T) :
    M (Shape T) := do
  let (ccwLoops, cwLoops) ← offsetLoops env s offset o
  let loops := ccwLoops ++ cwLoops
  if loops.isEmpty then .ok (Shape.empty env)
  else do
    let bs ← allBounds (loops.map OffsetLoop.ip)
    let loopsIndex := env.build bs
    let sets ← findLoopIntersects env loops loopsIndex o.posEqualEps
    let inputs := s.ccw ++ s.cw
    let ds ← loops.zipIdx.mapM (fun (li : OffsetLoop T × Nat) => do
      let r ← dissectLoop env inputs offset o sets li.1 li.2
      (.ok (li.1, li.2, r) : M (OffsetLoop T × Nat × List (DissectedSlice T) × Bool)))
    let whole1 := (ds.filter (fun d => d.2.2.2 && decide (d.2.1 < ccwLoops.length))).map (·.1.ip)
    let whole2 := (ds.filter (fun d => d.2.2.2 && !decide (d.2.1 < ccwLoops.length))).map (·.1.ip)
    let slices := ds.flatMap (·.2.2.1)
    let idx := env.build
      (slices.map (fun sl => (AABB.ofPoint sl.vdata.updatedStart.pos).grow o.sliceJoinEps))
    let stitched ← shapeStitchOuter loops idx slices o (List.range slices.length)
      (List.replicate slices.length false)
    let ccw' := (stitched.filter (fun p => p.orientation == .counterClockwise)).map (.new env)
    let cw' := (stitched.filter (fun p => p.orientation != .counterClockwise)).map (.new env)
    Shape.build env (whole1 ++ ccw') (whole2 ++ cw')

end Cavc
