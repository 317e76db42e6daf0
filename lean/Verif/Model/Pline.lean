import Verif.Model.Seg

/-!
# Polylines

Models `polyline/pline.rs` and the provided methods of the traits in `polyline/traits.rs`
(paths relative to `cavalier_contours/src`).
-/

namespace Cavc
open Scalar

/-- Why a Rust call panics. -/
inductive Panic where
  | indexOutOfBounds
  | unwrapNone
  | assertFailed
  | unreachable
  | underflow
deriving DecidableEq, Repr

/-- Computations that may panic. -/
abbrev M (α : Type) := Except Panic α

/-- `Option::unwrap`. -/
def unwrap {α : Type} : Option α → M α
  | some a => .ok a
  | none => .error .unwrapNone

/-- `Polyline`, `polyline/pline.rs:17-23`. -/
structure Pline (T : Type) where
  verts : List (Vertex T)
  closed : Bool
deriving DecidableEq, Repr

variable {T : Type} [Scalar T]

namespace Pline

/-- `vertex_count`, `polyline/pline.rs:82-84`. -/
def vertexCount (p : Pline T) : Nat := p.verts.length
/-- `get`, `polyline/pline.rs:92-94`. -/
def get (p : Pline T) (i : Nat) : Option (Vertex T) := p.verts[i]?
/-- `at`, `polyline/pline.rs:97-99`: slice indexing, panics when out of bounds. -/
def «at» (p : Pline T) (i : Nat) : M (Vertex T) :=
  match p.verts[i]? with
  | some v => .ok v
  | none => .error .indexOutOfBounds
/-- `is_empty`, `polyline/traits.rs:80-82`. -/
def isEmpty (p : Pline T) : Bool := p.vertexCount == 0
/-- `last`, `polyline/traits.rs:110-112`, release build semantics: `vertex_count() - 1` wraps for an
empty polyline and `get` gives `None`.  See `lastDebug` for a debug build. -/
def last (p : Pline T) : Option (Vertex T) := p.verts.getLast?
/-- `last`, `polyline/traits.rs:110-112`, with overflow checks (debug build). -/
def lastDebug (p : Pline T) : M (Option (Vertex T)) :=
  if p.vertexCount = 0 then .error .underflow else .ok (p.get (p.vertexCount - 1))

/-- `segment_count`, `polyline/traits.rs:116-125`. -/
def segmentCount (p : Pline T) : Nat :=
  let vc := p.vertexCount
  if vc < 2 then 0 else if p.closed then vc else vc - 1

/-- `next_wrapping_index`, `polyline/traits.rs:142-145`. -/
def nextWrap (p : Pline T) (i : Nat) : Nat :=
  let next := i + 1
  if next ≥ p.vertexCount then 0 else next

/-- `prev_wrapping_index`, `polyline/traits.rs:151-157` (`vertex_count() - 1` assumed not to
underflow: the callers have at least one vertex). -/
def prevWrap (p : Pline T) (i : Nat) : Nat :=
  if i = 0 then p.vertexCount - 1 else i - 1

/-- `fwd_wrapping_dist`, `polyline/traits.rs:176-189`. -/
def fwdDist (p : Pline T) (start «end» : Nat) : Nat :=
  if start ≤ «end» then «end» - start else p.vertexCount - start + «end»

/-- `fwd_wrapping_index`, `polyline/traits.rs:211-223`. -/
def fwdIndex (p : Pline T) (start offset : Nat) : Nat :=
  let sum := start + offset
  if sum < p.vertexCount then sum else sum - p.vertexCount

/-- State of `SegmentIter`, `polyline/traits.rs:1909-1916`. -/
structure SegIter where
  pos : Nat
  exhausted : Bool

/-- `SegmentIter::new`, `polyline/traits.rs:1923-1929`. -/
def SegIter.new (p : Pline T) : SegIter := ⟨0, p.vertexCount < 2⟩

/-- `SegmentIter::next`, `polyline/traits.rs:1953-1971`. -/
def SegIter.next (p : Pline T) (it : SegIter) : M (Option (Vertex T × Vertex T) × SegIter) :=
  if it.exhausted then .ok (none, it)
  else
    let vc := p.vertexCount
    if it.pos = vc - 1 then
      if p.closed then do
        let a ← p.at (vc - 1)
        let b ← p.at 0
        .ok (some (a, b), { it with exhausted := true })
      else .ok (none, it)
    else do
      let a ← p.at it.pos
      let b ← p.at (it.pos + 1)
      .ok (some (a, b), { it with pos := it.pos + 1 })

/-- Collecting a `SegmentIter` for at most `fuel` calls of `next`; `none` when it did not finish. -/
def SegIter.collect (p : Pline T) : Nat → SegIter → M (Option (List (Vertex T × Vertex T)))
  | 0, _ => .ok none
  | fuel + 1, it => do
    let r ← it.next p
    match r.1 with
    | none => .ok (some [])
    | some s => do
      let rest ← SegIter.collect p fuel r.2
      .ok (rest.map (s :: ·))

/-- Consecutive pairs of a vertex list. -/
def pathSegs {α : Type} : List α → List (α × α)
  | a :: b :: r => (a, b) :: pathSegs (b :: r)
  | _ => []

/-- What `iter_segments()` yields (`polyline/traits.rs:68-70, 1946-1971`) as a list; that
collecting the iterator gives this list is theorem `C01_segmentIter`. -/
def segs (p : Pline T) : List (Vertex T × Vertex T) :=
  match p.verts with
  | [] => []
  | [_] => []
  | a :: b :: r => if p.closed then pathSegs (a :: b :: r ++ [a]) else pathSegs (a :: b :: r)

/-- State of `PlineSegIndexIterator`, `polyline/traits.rs:2000-2004`. -/
structure SegIdxIter where
  pos : Nat
  remaining : Nat
  isClosed : Bool

/-- `PlineSegIndexIterator::new`, `polyline/traits.rs:2008-2021`. -/
def SegIdxIter.new (vertexCount : Nat) (isClosed : Bool) : SegIdxIter :=
  ⟨0, if vertexCount < 2 then 0 else if isClosed then vertexCount else vertexCount - 1, isClosed⟩

/-- `PlineSegIndexIterator::next`, `polyline/traits.rs:2028-2042`. -/
def SegIdxIter.next (it : SegIdxIter) : Option (Nat × Nat) × SegIdxIter :=
  if it.remaining = 0 then (none, it)
  else
    let remaining := it.remaining - 1
    if remaining = 0 && it.isClosed then (some (it.pos, 0), { it with remaining := remaining })
    else (some (it.pos, it.pos + 1), { it with pos := it.pos + 1, remaining := remaining })

/-- Running a `PlineSegIndexIterator` to its end (`remaining` decreases with each item). -/
def SegIdxIter.collect : Nat → SegIdxIter → List (Nat × Nat)
  | 0, _ => []
  | fuel + 1, it =>
    match it.next with
    | (none, _) => []
    | (some s, it') => s :: SegIdxIter.collect fuel it'

/-- `iter_segment_indexes()`, `polyline/traits.rs:134-136`, collected. -/
def segIndexes (p : Pline T) : List (Nat × Nat) :=
  let it := SegIdxIter.new p.vertexCount p.closed
  SegIdxIter.collect (it.remaining + 1) it

/-- `fuzzy_eq_eps`, `polyline/traits.rs:87-97`. -/
def fuzzyEqEps (p q : Pline T) (eps : T) : Bool :=
  p.closed == q.closed && p.vertexCount == q.vertexCount
    && (p.verts.zip q.verts).all (fun vu => vu.1.fuzzyEqEps vu.2 eps)

/-! ## Mutation -/

/-- `set_vertex`, `polyline/pline.rs:107-109`. -/
def setVertex (p : Pline T) (i : Nat) (v : Vertex T) : M (Pline T) :=
  if i < p.verts.length then .ok { p with verts := p.verts.set i v } else .error .indexOutOfBounds
/-- `set_last`, `polyline/traits.rs:1571-1573`; panics on an empty polyline. -/
def setLast (p : Pline T) (v : Vertex T) : M (Pline T) :=
  if p.verts.length = 0 then .error .underflow else p.setVertex (p.verts.length - 1) v
/-- `insert_vertex`, `polyline/pline.rs:112-114`. -/
def insertVertex (p : Pline T) (i : Nat) (v : Vertex T) : M (Pline T) :=
  if i ≤ p.verts.length then .ok { p with verts := p.verts.insertIdx i v }
  else .error .indexOutOfBounds
/-- `remove`, `polyline/pline.rs:117-119`. -/
def remove (p : Pline T) (i : Nat) : M (Vertex T × Pline T) :=
  match p.verts[i]? with
  | some v => .ok (v, { p with verts := p.verts.eraseIdx i })
  | none => .error .indexOutOfBounds
/-- `remove_last`, `polyline/traits.rs:1594-1596`; panics on an empty polyline. -/
def removeLast (p : Pline T) : M (Vertex T × Pline T) :=
  if p.verts.length = 0 then .error .underflow else p.remove (p.verts.length - 1)
/-- `add_vertex`, `polyline/pline.rs:122-124`. -/
def addVertex (p : Pline T) (v : Vertex T) : Pline T := { p with verts := p.verts ++ [v] }
/-- `extend_vertexes`, `polyline/pline.rs:142-147`. -/
def extendVertexes (p : Pline T) (vs : List (Vertex T)) : Pline T :=
  { p with verts := p.verts ++ vs }
/-- `clear`, `polyline/pline.rs:137-139`. -/
def clear (p : Pline T) : Pline T := { p with verts := [] }
/-- `set_is_closed`, `polyline/pline.rs:132-134`. -/
def setIsClosed (p : Pline T) (c : Bool) : Pline T := { p with closed := c }

/-- `add_or_replace_vertex`, `polyline/traits.rs:1653-1667`. -/
def addOrReplaceVertex (p : Pline T) (v : Vertex T) (eps : T) : M (Pline T) :=
  let vc := p.vertexCount
  if vc = 0 then .ok (p.addVertex v)
  else do
    let last ← p.at (vc - 1)
    if last.pos.fuzzyEqEps v.pos eps then p.setVertex (vc - 1) (last.withBulge v.bulge)
    else .ok (p.addVertex v)

/-- `extend_remove_repeat`, `polyline/traits.rs:1635-1643`. -/
def extendRemoveRepeat (p other : Pline T) (eps : T) : M (Pline T) :=
  other.verts.foldlM (fun acc v => acc.addOrReplaceVertex v eps) p

/-- `create_from_remove_repeat`, `polyline/traits.rs:1792-1809`. -/
def createFromRemoveRepeat (p : Pline T) (eps : T) : M (Pline T) := do
  let result ← p.verts.foldlM (fun acc v => acc.addOrReplaceVertex v eps) (⟨[], p.closed⟩ : Pline T)
  if p.closed && decide (result.vertexCount ≥ 2) then do
    let last ← unwrap result.last
    let first ← result.at 0
    if last.pos.fuzzyEqEps first.pos eps then do
      let r ← result.removeLast
      .ok r.2
    else .ok result
  else .ok result

/-- `scale_mut`, `polyline/traits.rs:1700-1705`. -/
def scaleMut (p : Pline T) (s : T) : M (Pline T) :=
  (List.range p.vertexCount).foldlM (fun q i => do
    let v ← q.at i
    q.setVertex i ⟨s * v.x, s * v.y, v.bulge⟩) p

/-- `translate_mut`, `polyline/traits.rs:1722-1727`. -/
def translateMut (p : Pline T) (x y : T) : M (Pline T) :=
  (List.range p.vertexCount).foldlM (fun q i => do
    let v ← q.at i
    q.setVertex i ⟨v.x + x, v.y + y, v.bulge⟩) p

/-- the swapping loop of `invert_direction_mut`, `polyline/traits.rs:1743-1750`. -/
def invertSwapLoop (p : Pline T) (start «end» : Nat) : M (Pline T) :=
  if start < «end» then do
    let s ← p.at start
    let e ← p.at «end»
    let p ← p.setVertex start e
    let p ← p.setVertex «end» s
    invertSwapLoop p (start + 1) («end» - 1)
  else .ok p
termination_by «end» - start

/-- `invert_direction_mut`, `polyline/traits.rs:1735-1761`. -/
def invertDirectionMut (p : Pline T) : M (Pline T) :=
  let vc := p.vertexCount
  if vc < 2 then .ok p
  else do
    let p ← invertSwapLoop p 0 (vc - 1)
    let first ← p.at 0
    let firstBulge := first.bulge
    let p ← (List.range' 1 (vc - 1)).foldlM (fun q i => do
      let vi ← q.at i
      let vp ← q.at (i - 1)
      q.setVertex (i - 1) (vp.withBulge (-vi.bulge))) p
    if p.closed then do
      let l ← p.at (vc - 1)
      p.setVertex (vc - 1) (l.withBulge (-firstBulge))
    else .ok p

/-! ## Queries -/

/-- one step of the fold in `extents`, `polyline/traits.rs:261-285`. -/
def extentsStep (r : AABB T) (s : Vertex T × Vertex T) : AABB T :=
  let v1 := s.1
  let v2 := s.2
  if v1.bulgeIsZero then
    let r := if lt v2.x r.minX then { r with minX := v2.x }
      else if gt v2.x r.maxX then { r with maxX := v2.x } else r
    if lt v2.y r.minY then { r with minY := v2.y }
    else if gt v2.y r.maxY then { r with maxY := v2.y } else r
  else
    let a := arcSegBoundingBox v1 v2
    ⟨Scalar.min r.minX a.minX, Scalar.min r.minY a.minY,
     Scalar.max r.maxX a.maxX, Scalar.max r.maxY a.maxY⟩

/-- `extents`, `polyline/traits.rs:253-288`. -/
def extents (p : Pline T) : M (Option (AABB T)) :=
  if p.segmentCount = 0 then .ok none
  else do
    let v1 ← p.at 0
    .ok (some (p.segs.foldl extentsStep ⟨v1.x, v1.y, v1.x, v1.y⟩))

/-- `path_length`, `polyline/traits.rs:307-310`. -/
def pathLength (p : Pline T) : T := p.segs.foldl (fun acc s => acc + segLength s.1 s.2) 0

/-- the circular segment term of `area`, `polyline/traits.rs:355-371`. -/
def doubleArcArea (v1 v2 : Vertex T) : T :=
  let b := abs v1.bulge
  let sweepAngle := angleFromBulge b
  let triangleBase := (v2.pos - v1.pos).length
  let radius := triangleBase * ((b * b + 1) / (four * b))
  let sagitta := b * triangleBase / two
  let triangleHeight := radius - sagitta
  let doubleSectorArea := sweepAngle * radius * radius
  let doubleTriangleArea := triangleBase * triangleHeight
  let d := doubleSectorArea - doubleTriangleArea
  if v1.bulgeIsNeg then -d else d

/-- loop body of `area`, `polyline/traits.rs:353-372`. -/
def areaStep (acc : T) (s : Vertex T × Vertex T) : T :=
  let acc := acc + s.1.x * s.2.y - s.1.y * s.2.x
  if !s.1.bulgeIsZero then acc + doubleArcArea s.1 s.2 else acc

/-- `area`, `polyline/traits.rs:336-375`. -/
def area (p : Pline T) : T :=
  if !p.closed then 0 else p.segs.foldl areaStep 0 / two

/-- `PlineOrientation`, `polyline/pline_types.rs:18-25`. -/
inductive Orientation where
  | «open»
  | clockwise
  | counterClockwise
deriving DecidableEq, Repr

/-- `orientation`, `polyline/traits.rs:381-391`. -/
def orientation (p : Pline T) : Orientation :=
  if !p.closed then .open else if lt p.area 0 then .clockwise else .counterClockwise

/-- loop of `remove_repeat_pos`, `polyline/traits.rs:416-438`, over the enumerated vertices. -/
def removeRepeatLoop (p : Pline T) (eps : T) :
    List (Vertex T × Nat) → V2 T → Option (Pline T) → M (Option (Pline T))
  | [], _, result => .ok result
  | (v, i) :: rest, prevPos, result =>
    if v.pos.fuzzyEqEps prevPos eps then do
      let r := result.getD ⟨p.verts.take i, p.closed⟩
      let last ← unwrap r.last
      let r ← r.setLast (last.withBulge v.bulge)
      removeRepeatLoop p eps rest prevPos (some r)
    else
      removeRepeatLoop p eps rest v.pos (result.map (·.addVertex v))

/-- `remove_repeat_pos`, `polyline/traits.rs:411-456`. -/
def removeRepeatPos (p : Pline T) (eps : T) : M (Option (Pline T)) :=
  if p.vertexCount < 2 then .ok none
  else do
    let v0 ← p.at 0
    let result ← removeRepeatLoop p eps (p.verts.zipIdx.drop 1) v0.pos none
    if p.closed then do
      let last ← unwrap p.last
      let first ← p.at 0
      if last.pos.fuzzyEqEps first.pos eps then do
        let r := result.getD ⟨p.verts, p.closed⟩
        let rl ← r.removeLast
        .ok (some rl.2)
      else .ok result
    else .ok result

/-! ### `remove_redundant` -/

/-- closure `is_collinear_same_dir`, `polyline/traits.rs:522-538`. -/
def isCollinearSameDir (eps : T) (v1 v2 v3 : Vertex T) : Bool :=
  if v2.pos.fuzzyEqEps v3.pos eps then true
  else
    let collinear := fuzzyEqZeroEps
      (v1.x * (v2.y - v3.y) + v2.x * (v3.y - v1.y) + v3.x * (v1.y - v2.y)) eps
    let sameDirection := gt ((v3.pos - v2.pos).dot (v2.pos - v1.pos)) (-eps)
    collinear && sameDirection

/-- the loop skipping repeats at the start, `polyline/traits.rs:545-553`; `rest` are the vertices
from index `i` on. -/
def skipStartRepeats (eps : T) (vc : Nat) :
    Vertex T → Vertex T → Nat → List (Vertex T) → Vertex T × Vertex T × Nat
  | v1, v2, i, rest =>
    if v1.pos.fuzzyEqEps v2.pos eps then
      let v1 := v1.withBulge v2.bulge
      if i ≥ vc then (v1, v2, i)
      else match rest with
        | [] => (v1, v2, i)
        | v :: rest => skipStartRepeats eps vc v1 v (i + 1) rest
    else (v1, v2, i)
termination_by _ _ _ rest => rest.length

/-- `RemoveRedundantCase`, `polyline/traits.rs:575-585`. -/
inductive RedundantCase (T : Type) where
  | includeVertex
  | discardVertex
  | updateV1BulgeForArc (bulge : T)

/-- loop state of `remove_redundant`, `polyline/traits.rs:555-571`. -/
structure RedundantState (T : Type) where
  result : Option (Pline T)
  v1 : Vertex T
  v2 : Vertex T
  v1v2Arc : Option (T × V2 T)
  v1Zero : Bool
  v2Zero : Bool
  v1Pos : Bool
  v2Pos : Bool

/-- the bulge for joining two arcs on the same circle, `polyline/traits.rs:620-648, 752-776`. -/
def joinArcsBulge (eps : T) (r1 : T) (c1 : V2 T) (v1Pos : Bool) (v1 v2 v3 : Vertex T) : Option T :=
  let rc2 := segArcRadiusAndCenter v2 v3
  if Scalar.fuzzyEqEps r1 rc2.1 eps && c1.fuzzyEqEps rc2.2 eps then
    let angle1 := angle c1 v1.pos
    let angle2 := angle c1 v2.pos
    let angle3 := angle c1 v3.pos
    let totalSweep := abs (deltaAngle angle1 angle2) + abs (deltaAngle angle2 angle3)
    let avgRadius := (r1 + rc2.1) / two
    if fuzzyLtEps (avgRadius * totalSweep) (avgRadius * pi) eps then
      some (if v1Pos then bulgeFromAngle totalSweep else -(bulgeFromAngle totalSweep))
    else none
  else none

/-- body of the main loop of `remove_redundant`, `polyline/traits.rs:588-692`. -/
def redundantStep (p : Pline T) (eps : T) (st : RedundantState T) (iv : Nat × Vertex T) :
    M (RedundantState T) :=
  let i := iv.1
  let v3 := iv.2
  let vc := p.vertexCount
  let v1 := st.v1
  let v2 := st.v2
  let isJoin := !st.v1Zero && !st.v2Zero && (st.v1Pos == st.v2Pos) && !v2.pos.fuzzyEqEps v3.pos eps
  -- `v1_v2_arc.get_or_insert_with(..)`, lines 615-616
  let arc := if v2.pos.fuzzyEqEps v3.pos eps then st.v1v2Arc
    else if st.v1Zero && st.v2Zero then st.v1v2Arc
    else if isJoin then some (st.v1v2Arc.getD (segArcRadiusAndCenter v1 v2)) else st.v1v2Arc
  let case : RedundantCase T :=
    if v2.pos.fuzzyEqEps v3.pos eps then .discardVertex
    else if st.v1Zero && st.v2Zero then
      let isFinalVertexForOpen := !p.closed && i == vc
      if !isFinalVertexForOpen && isCollinearSameDir eps v1 v2 v3 then .discardVertex
      else .includeVertex
    else if isJoin then
      let rc1 := st.v1v2Arc.getD (segArcRadiusAndCenter v1 v2)
      match joinArcsBulge eps rc1.1 rc1.2 st.v1Pos v1 v2 v3 with
      | some b => .updateV1BulgeForArc b
      | none => .includeVertex
    else .includeVertex
  let copySelf : Pline T := ⟨p.verts.take (i - 1), p.closed⟩
  match case with
  | .includeVertex =>
    .ok { result := st.result.map (·.addVertex v2), v1 := v2, v2 := v3, v1v2Arc := none,
          v1Zero := st.v2Zero, v2Zero := v3.bulgeIsZero, v1Pos := st.v2Pos,
          v2Pos := v3.bulgeIsPos }
  | .discardVertex =>
    .ok { st with result := some (st.result.getD copySelf), v2 := v3, v1v2Arc := none,
                  v2Zero := v3.bulgeIsZero, v2Pos := v3.bulgeIsPos }
  | .updateV1BulgeForArc bulge => do
    let r := st.result.getD copySelf
    let last ← unwrap r.last
    let r ← r.setLast (last.withBulge bulge)
    .ok { result := some r, v1 := v1.withBulge bulge, v2 := v3, v1v2Arc := arc,
          v1Zero := st.v2Zero, v2Zero := v3.bulgeIsZero, v1Pos := st.v2Pos,
          v2Pos := v3.bulgeIsPos }

/-- dropping a last vertex that repeats the first one, `polyline/traits.rs:696-730`. -/
def redundantWrapRepeat (p : Pline T) (eps : T) (st : RedundantState T) :
    M (Option (Pline T)) :=
  match st.result with
  | some pl => do
    let last ← unwrap pl.last
    let first ← pl.at 0
    if last.pos.fuzzyEqEps first.pos eps then do
      let r ← pl.removeLast
      .ok (some r.2)
    else .ok (some pl)
  | none => do
    let last ← unwrap p.last
    let first ← p.at 0
    if last.pos.fuzzyEqEps first.pos eps then do
      let r ← p.removeLast
      .ok (some r.2)
    else .ok none

/-- replacing the first vertex by the last one, `polyline/traits.rs:741-745, 772-776`. -/
def redundantDropFirst (pl : Pline T) (f : Vertex T → Vertex T) : M (Option (Pline T)) := do
  let r ← pl.removeLast
  let pl ← r.2.setVertex 0 (f r.1)
  .ok (some pl)

/-- considering to discard the first vertex, `polyline/traits.rs:739-777`. -/
def redundantFirst (p : Pline T) (eps : T) (st : RedundantState T) (result : Option (Pline T))
    (v3 : Vertex T) : M (Option (Pline T)) :=
  let v1 := st.v1
  let v2 := st.v2
  if st.v1Zero && st.v2Zero && isCollinearSameDir eps v1 v2 v3 then
    redundantDropFirst (result.getD p) id
  else if !st.v1Zero && !st.v2Zero && (st.v1Pos == st.v2Pos) && !v2.pos.fuzzyEqEps v3.pos eps then
    let rc1 := st.v1v2Arc.getD (segArcRadiusAndCenter v1 v2)
    match joinArcsBulge eps rc1.1 rc1.2 st.v1Pos v1 v2 v3 with
    | some b => redundantDropFirst (result.getD p) (·.withBulge b)
    | none => .ok result
  else .ok result

/-- closing part of `remove_redundant` for closed polylines, `polyline/traits.rs:694-777`. -/
def redundantCloseClosed (p : Pline T) (eps : T) (st : RedundantState T) :
    M (Option (Pline T)) := do
  let result ← redundantWrapRepeat p eps st
  let v3 ← (result.getD p).at 1
  redundantFirst p eps st result v3

/-- closing part of `remove_redundant` for open polylines, `polyline/traits.rs:778-797`. -/
def redundantCloseOpen (p : Pline T) (eps : T) (st : RedundantState T) : M (Option (Pline T)) :=
  let vc := p.vertexCount
  match st.result with
  | some pl => do
    let last ← unwrap p.last
    let pl ← pl.addOrReplaceVertex last eps
    .ok (some pl)
  | none => do
    let a ← p.at (vc - 2)
    let b ← p.at (vc - 1)
    if a.fuzzyEqEps b eps then do
      let r ← p.removeLast
      .ok (some r.2)
    else .ok none

/-- the cyclic vertex enumeration of `polyline/traits.rs:588-594`:
`iter_vertexes().cycle().enumerate().skip(i).take(count)`. -/
def cycleFrom (p : Pline T) (i count : Nat) : List (Nat × Vertex T) :=
  (List.range' i count).filterMap (fun k => (p.verts[k % p.vertexCount]?).map (fun v => (k, v)))

/-- `remove_redundant`, `polyline/traits.rs:503-800`. -/
def removeRedundant (p : Pline T) (eps : T) : M (Option (Pline T)) :=
  let vc := p.vertexCount
  if vc < 2 then .ok none
  else if vc = 2 then do
    let v1 ← p.at 0
    let v2 ← p.at 1
    if v1.pos.fuzzyEqEps v2.pos eps then .ok (some ⟨[v2], p.closed⟩) else .ok none
  else do
    let v1 ← p.at 0
    let v2 ← p.at 1
    let s := skipStartRepeats eps vc v1 v2 2 (p.verts.drop 2)
    let v1 := s.1
    let v2 := s.2.1
    let i := s.2.2
    let result : Option (Pline T) := if i = 2 then none else some ⟨[v1], p.closed⟩
    if i ≥ vc then .ok result
    else do
      let st : RedundantState T :=
        { result := result, v1 := v1, v2 := v2, v1v2Arc := none,
          v1Zero := v1.bulgeIsZero, v2Zero := v2.bulgeIsZero,
          v1Pos := v1.bulgeIsPos, v2Pos := v2.bulgeIsPos }
      let iterCount := if p.closed then vc - 1 else vc - 2
      let st ← (cycleFrom p i iterCount).foldlM (redundantStep p eps) st
      if p.closed then redundantCloseClosed p eps st else redundantCloseOpen p eps st

/-! ### Others -/

/-- closure `wrapping_vertexes_starting_at`, `polyline/traits.rs:842-847`. -/
def wrappingVertexesStartingAt (p : Pline T) (start : Nat) : List (Vertex T) :=
  (p.verts.drop start).take (p.vertexCount - start) ++ p.verts.take start

/-- `rotate_start`, `polyline/traits.rs:831-881`. -/
def rotateStart (p : Pline T) (startIndex : Nat) (point : V2 T) (eps : T) :
    M (Option (Pline T)) :=
  let vc := p.vertexCount
  if !p.closed || decide (vc < 2) || decide (startIndex > vc - 1) then .ok none
  else do
    let startV ← p.at startIndex
    if startV.pos.fuzzyEqEps point eps then
      .ok (some ⟨p.wrappingVertexesStartingAt startIndex, true⟩)
    else do
      let nextIndex := p.nextWrap startIndex
      let nextV ← p.at nextIndex
      if point.fuzzyEqEps nextV.pos eps then
        .ok (some ⟨p.wrappingVertexesStartingAt nextIndex, true⟩)
      else do
        let split := segSplitAtPoint startV nextV point eps
        let r : Pline T := ⟨split.splitVertex :: p.wrappingVertexesStartingAt nextIndex, true⟩
        let r ← r.setLast split.updatedStart
        .ok (some r)

/-- boxes added by `create_approx_aabb_index`, `polyline/traits.rs:893-914`: the announced item
count and the boxes. -/
def approxAabbBoxes (p : Pline T) : Nat × List (AABB T) :=
  let vc := p.vertexCount
  if vc < 2 then (0, [])
  else (if p.closed then vc else vc - 1, p.segs.map (fun s => segFastApproxBoundingBox s.1 s.2))

/-- boxes added by `create_aabb_index`, `polyline/traits.rs:925-946`. -/
def aabbBoxes (p : Pline T) : Nat × List (AABB T) :=
  let vc := p.vertexCount
  if vc < 2 then (0, [])
  else (if p.closed then vc else vc - 1, p.segs.map (fun s => segBoundingBox s.1 s.2))

/-- `ClosestPointResult`, `polyline/pline_types.rs:29-39`. -/
structure ClosestPointResult (T : Type) where
  segStartIndex : Nat
  segPoint : V2 T
  distance : T
deriving DecidableEq, Repr

/-- Loop state of `closest_point`: index, point, best squared distance (`none` is the initial
`max_value()`). -/
structure ClosestState (T : Type) where
  segStartIndex : Nat
  segPoint : V2 T
  dist2 : Option T

/-- loop body of `closest_point`, `polyline/traits.rs:991-1002`. -/
def closestStep (p : Pline T) (point : V2 T) (eps : T) (st : ClosestState T) (ij : Nat × Nat) :
    M (ClosestState T) := do
  let v1 ← p.at ij.1
  let v2 ← p.at ij.2
  let cp := segClosestPoint v1 v2 point eps
  let d2 := (point - cp).lengthSquared
  let better := match st.dist2 with
    | none => ltMax d2
    | some d => lt d2 d
  if better then .ok ⟨ij.1, cp, some d2⟩ else .ok st

/-- `closest_point`, `polyline/traits.rs:968-1007`. -/
def closestPoint (p : Pline T) (point : V2 T) (eps : T) : M (Option (ClosestPointResult T)) :=
  if p.isEmpty then .ok none
  else do
    let v0 ← p.at 0
    if p.vertexCount = 1 then .ok (some ⟨0, v0.pos, (v0.pos - point).length⟩)
    else do
      let st ← p.segIndexes.foldlM (closestStep p point eps) ⟨0, v0.pos, none⟩
      let d := match st.dist2 with
        | none => maxValue
        | some d => d
      .ok (some ⟨st.segStartIndex, st.segPoint, sqrt d⟩)

/-- closure `process_line_winding`, `polyline/traits.rs:1068-1082`. -/
def lineWinding (v1 v2 : Vertex T) (point : V2 T) : Int :=
  if le v1.y point.y then
    if gt v2.y point.y && isLeft v1.pos v2.pos point then 1 else 0
  else if le v2.y point.y && !isLeft v1.pos v2.pos point then -1 else 0

/-- closure `process_arc_winding`, `polyline/traits.rs:1085-1179`. -/
def arcWinding (v1 v2 : Vertex T) (point : V2 T) : Int :=
  let isCcw := v1.bulgeIsPos
  let pointIsLeft :=
    if isCcw then isLeft v1.pos v2.pos point else isLeftOrEqual v1.pos v2.pos point
  let rc := segArcRadiusAndCenter v1 v2
  let inCircle := lt (distSquared rc.2 point) (rc.1 * rc.1)
  if le v1.y point.y then
    if gt v2.y point.y then
      if isCcw then
        if pointIsLeft then 1 else if inCircle then 1 else 0
      else if pointIsLeft then
        if !inCircle then 1 else 0
      else 0
    else
      if isCcw && !pointIsLeft && lt v2.x point.x && lt point.x v1.x && inCircle then 1
      else if !isCcw && pointIsLeft && lt v1.x point.x && lt point.x v2.x && inCircle then -1
      else 0
  else if le v2.y point.y then
    if isCcw then
      if !pointIsLeft then
        if !inCircle then -1 else 0
      else 0
    else if pointIsLeft then
      if inCircle then -1 else 0
    else -1
  else
    if isCcw && !pointIsLeft && lt v1.x point.x && lt point.x v2.x && inCircle then 1
    else if !isCcw && pointIsLeft && lt v2.x point.x && lt point.x v1.x && inCircle then -1
    else 0

/-- contribution of a segment, `polyline/traits.rs:1183-1189`. -/
def segWinding (point : V2 T) (s : Vertex T × Vertex T) : Int :=
  if s.1.bulgeIsZero then lineWinding s.1 s.2 point else arcWinding s.1 s.2 point

/-- `winding_number`, `polyline/traits.rs:1062-1192` (the `i32` result as an unbounded integer). -/
def windingNumber (p : Pline T) (point : V2 T) : Int :=
  if !p.closed || decide (p.vertexCount < 2) then 0
  else p.segs.foldl (fun w s => w + segWinding point s) 0

/-- the points added for one segment by `arcs_to_approx_lines`, `polyline/traits.rs:1211-1247`. -/
def approxLinesOfSeg (errorDistance : T) (s : Vertex T × Vertex T) : Option (List (Vertex T)) :=
  let v1 := s.1
  let v2 := s.2
  let absError := abs errorDistance
  if v1.bulgeIsZero then some [v1]
  else
    let rc := segArcRadiusAndCenter v1 v2
    if fuzzyLt rc.1 errorDistance then some [⟨v1.x, v1.y, 0⟩]
    else
      let startAngle := angle rc.2 v1.pos
      let endAngle := angle rc.2 v2.pos
      let angleDiff := abs (deltaAngle startAngle endAngle)
      let segSubAngle := two * abs (acos (1 - absError / rc.1))
      let segCount := ceil (angleDiff / segSubAngle)
      let segAngleOffset := if v1.bulgeIsNeg then -angleDiff / segCount else angleDiff / segCount
      match toUsize segCount with
      | none => none
      | some n =>
        ((List.range' 1 (n - 1)).mapM (fun i => (ofUsize i).map (fun (anglePos : T) =>
          let a := anglePos * segAngleOffset + startAngle
          let pos := pointOnCircle rc.1 rc.2 a
          (⟨pos.x, pos.y, 0⟩ : Vertex T)))).map (fun l => ⟨v1.x, v1.y, 0⟩ :: l)

/-- `arcs_to_approx_lines`, `polyline/traits.rs:1200-1255`. -/
def arcsToApproxLines (p : Pline T) (errorDistance : T) : M (Option (Pline T)) :=
  if p.isEmpty then .ok (some ⟨[], p.closed⟩)
  else
    match p.segs.mapM (approxLinesOfSeg errorDistance) with
    | none => .ok none
    | some ls =>
      if !p.closed then do
        let last ← unwrap p.last
        .ok (some ⟨ls.flatten ++ [last], p.closed⟩)
      else .ok (some ⟨ls.flatten, p.closed⟩)

/-- the point at parameter `t` of a segment in `find_point_at_path_length`,
`polyline/traits.rs:1530-1543`. -/
def pointAtSegParam (v1 v2 : Vertex T) (t : T) : V2 T :=
  if v1.bulgeIsZero then v1.pos + (v2.pos - v1.pos).scale t
  else
    let rc := segArcRadiusAndCenter v1 v2
    let startAngle := angle rc.2 v1.pos
    let totalSweepAngle := angleFromBulge v1.bulge
    pointOnCircle rc.1 rc.2 (startAngle + totalSweepAngle * t)

/-- loop of `find_point_at_path_length`, `polyline/traits.rs:1518-1546`. -/
def findPointLoop (target : T) :
    List (Vertex T × Vertex T) → Nat → T → Except T (Nat × V2 T)
  | [], _, acc => .error acc
  | (v1, v2) :: rest, i, acc =>
    let segLen := segLength v1 v2
    let sumLen := acc + segLen
    if lt sumLen target then findPointLoop target rest (i + 1) sumLen
    else .ok (i, pointAtSegParam v1 v2 ((target - acc) / segLen))

/-- `find_point_at_path_length`, `polyline/traits.rs:1510-1547`; the outer `M` is a possible panic,
the inner `Except T` is the returned `Result`. -/
def findPointAtPathLength (p : Pline T) (target : T) : M (Except T (Nat × V2 T)) :=
  if le target 0 then do
    let v0 ← p.at 0
    .ok (.ok (0, v0.pos))
  else .ok (findPointLoop target p.segs 0 0)

end Pline
end Cavc
