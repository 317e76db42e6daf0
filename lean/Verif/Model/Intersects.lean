import Verif.Model.View

/-!
# Intersects of polylines

Models `polyline/internal/pline_intersects.rs` and the intersect types of `polyline/pline_types.rs`
(paths relative to `cavalier_contours/src`).

The spatial index crate `static_aabb2d_index` and the standard library's unstable sort are not part
of this repository: they appear as the parameter `Env` and their documented behaviour as
`Env.Lawful`.
-/

namespace Cavc
open Scalar

/-- A built spatial index as seen by its users: `items` is `item_indices()` zipped with
`item_boxes()` (storage order, unspecified), `query` is the list of item indices visited by
`visit_query_with_stack` in visiting order. -/
structure Index (T : Type) where
  items : List (Nat × AABB T)
  query : AABB T → List Nat

/-- `AABB::overlaps` of `static_aabb2d_index`. -/
def AABB.overlaps {T : Type} [Scalar T] (a b : AABB T) : Bool :=
  !(lt a.maxX b.minX || lt a.maxY b.minY || gt a.minX b.maxX || gt a.minY b.maxY)

/-- Contract of an index built from `boxes`: every box is stored once, and a query visits exactly
the boxes overlapping the query box, each once, in some order. -/
structure Index.For {T : Type} [Scalar T] (idx : Index T) (boxes : List (AABB T)) : Prop where
  items_perm : idx.items.Perm (boxes.zipIdx.map (fun bi => (bi.2, bi.1)))
  query_nodup : ∀ q, (idx.query q).Nodup
  mem_query : ∀ q i, i ∈ idx.query q ↔ ∃ b, boxes[i]? = some b ∧ b.overlaps q = true

/-- The external code used: the index builder and `sort_unstable_by`. -/
structure Env (T : Type) where
  build : List (AABB T) → Index T
  sortBy : {α : Type} → (α → α → Ordering) → List α → List α

/-- What is assumed about the external code. -/
structure Env.Lawful {T : Type} [Scalar T] (env : Env T) : Prop where
  build_for : ∀ boxes, (env.build boxes).For boxes
  sort_perm : ∀ {α : Type} (cmp : α → α → Ordering) (l : List α), (env.sortBy cmp l).Perm l
  sort_sorted : ∀ {α : Type} (cmp : α → α → Ordering) (l : List α),
    (∀ a b, cmp a b = (cmp b a).swap) → (∀ a b c, cmp a b ≠ .gt → cmp b c ≠ .gt → cmp a c ≠ .gt) →
    (env.sortBy cmp l).Pairwise (fun a b => cmp a b ≠ .gt)

/-- `ControlFlow`, `core/traits/control_flow.rs:3-8`. -/
class ControlFlow (C : Type) where
  continuing : C
  shouldBreak : C → Bool

/-- `PlineBasicIntersect`, `polyline/pline_types.rs:336-343`. -/
structure BasicIntr (T : Type) where
  startIndex1 : Nat
  startIndex2 : Nat
  point : V2 T
deriving DecidableEq, Repr

/-- `PlineOverlappingIntersect`, `polyline/pline_types.rs:358-367`. -/
structure OverlapIntr (T : Type) where
  startIndex1 : Nat
  startIndex2 : Nat
  point1 : V2 T
  point2 : V2 T
deriving DecidableEq, Repr

/-- `PlineIntersect`, `polyline/pline_types.rs:389-392`. -/
inductive Intr (T : Type) where
  | basic (i : BasicIntr T)
  | overlapping (i : OverlapIntr T)
deriving DecidableEq, Repr

/-- A `PlineIntersectVisitor` (`polyline/pline_types.rs:417-424`) with state `S`. -/
abbrev Visitor (T S C : Type) := S → Intr T → S × C

variable {T : Type} [Scalar T]

/-- Feeding a list of intersects to a visitor until it breaks (the `try_cf!` pattern): the state
and, when it broke, the value it broke with. -/
def feed {S C : Type} [ControlFlow C] (vis : Visitor T S C) : S → List (Intr T) → S × Option C
  | s, [] => (s, none)
  | s, e :: es =>
    let r := vis s e
    if ControlFlow.shouldBreak r.2 then (r.1, some r.2) else feed vis r.1 es

/-- The intersects found by closure `visit_indexes`,
`polyline/internal/pline_intersects.rs:48-94`, in visiting order. -/
def localEvents (eps : T) (i j : Nat) (v1 v2 v3 : Vertex T) : List (Intr T) :=
  if v1.pos.fuzzyEqEps v2.pos eps then [.overlapping ⟨i, j, v1.pos, v2.pos⟩]
  else match plineSegIntr v1 v2 v2 v3 eps with
    | .noIntersect => []
    | .tangentIntersect point | .oneIntersect point =>
      if !point.fuzzyEqEps v2.pos eps then [.basic ⟨i, j, point⟩] else []
    | .twoIntersects point1 point2 =>
      (if !point1.fuzzyEqEps v2.pos eps then [.basic ⟨i, j, point1⟩] else []) ++
      (if !point2.fuzzyEqEps v2.pos eps then [.basic ⟨i, j, point2⟩] else [])
    | .overlappingLines point1 point2 | .overlappingArcs point1 point2 =>
      [.overlapping ⟨i, j, point1, point2⟩]

/-- The index triples visited by `visit_local_self_intersects`,
`polyline/internal/pline_intersects.rs:96-106`. -/
def localTriples (vc : Nat) (closed : Bool) : List (Nat × Nat × Nat) :=
  (List.range' 2 (vc - 2)).map (fun i => (i - 2, i - 1, i)) ++
  (if closed then [(vc - 2, vc - 1, 0), (vc - 1, 0, 1)] else [])

/-- The loop over the triples. -/
def localLoop {S C : Type} [ControlFlow C] (p : Pline T) (vis : Visitor T S C) (eps : T) :
    S → List (Nat × Nat × Nat) → M (S × C)
  | s, [] => .ok (s, ControlFlow.continuing)
  | s, (i, j, k) :: rest => do
    let v1 ← p.at i
    let v2 ← p.at j
    let v3 ← p.at k
    match feed vis s (localEvents eps i j v1 v2 v3) with
    | (s, some c) => .ok (s, c)
    | (s, none) => localLoop p vis eps s rest

/-- `visit_local_self_intersects`, `polyline/internal/pline_intersects.rs:20-108`. -/
def visitLocalSelfIntersects {S C : Type} [ControlFlow C] (p : Pline T) (vis : Visitor T S C)
    (s : S) (eps : T) : M (S × C) :=
  let vc := p.vertexCount
  if vc < 2 then .ok (s, ControlFlow.continuing)
  else if vc = 2 then
    if p.closed then do
      let a ← p.at 0
      let b ← p.at 1
      if fuzzyEq a.bulge (-b.bulge) then .ok (vis s (.overlapping ⟨0, 1, a.pos, b.pos⟩))
      else .ok (s, ControlFlow.continuing)
    else .ok (s, ControlFlow.continuing)
  else localLoop p vis eps s (localTriples vc p.closed)

/-- The intersects found for one pair of segments by `visit_global_self_intersects`,
`polyline/internal/pline_intersects.rs:170-214`. -/
def globalEvents (eps : T) (i hitI : Nat) (v1 v2 u1 u2 : Vertex T) : List (Intr T) :=
  let skip := fun (intr : V2 T) => v2.pos.fuzzyEqEps intr eps && u2.pos.fuzzyEqEps intr eps
  match plineSegIntr v1 v2 u1 u2 eps with
  | .noIntersect => []
  | .tangentIntersect point | .oneIntersect point =>
    if !skip point then [.basic ⟨i, hitI, point⟩] else []
  | .twoIntersects point1 point2 =>
    (if !skip point1 then [.basic ⟨i, hitI, point1⟩] else []) ++
    (if !skip point2 then [.basic ⟨i, hitI, point2⟩] else [])
  | .overlappingLines point1 point2 | .overlappingArcs point1 point2 =>
    if !skip point1 then [.overlapping ⟨i, hitI, point1, point2⟩] else []

/-- As `feed`, but keeping the last control flow value (the variable `cf`). -/
def feedCf {S C : Type} [ControlFlow C] (vis : Visitor T S C) : S × C → List (Intr T) → S × C
  | sc, [] => sc
  | sc, e :: es =>
    let r := vis sc.1 e
    if ControlFlow.shouldBreak r.2 then r else feedCf vis r es

/-- State of `visit_global_self_intersects`: `visited_pairs`, visitor state, `cf`. -/
structure GlobalState (S C : Type) where
  visited : List (Nat × Nat)
  s : S
  cf : C

/-- `query_visitor`, `polyline/internal/pline_intersects.rs:152-217`; result: the new state and
whether the query is broken off. -/
def globalHit {S C : Type} [ControlFlow C] (p : Pline T) (vis : Visitor T S C) (eps : T)
    (i j : Nat) (v1 v2 : Vertex T) (st : GlobalState S C) (hitI : Nat) :
    M (GlobalState S C × Bool) :=
  let hitJ := p.nextWrap hitI
  if i == hitI || i == hitJ || j == hitI || j == hitJ then .ok (st, false)
  else if st.visited.contains (hitI, i) then .ok (st, false)
  else do
    let visited := (i, hitI) :: st.visited
    let u1 ← p.at hitI
    let u2 ← p.at hitJ
    let evs := globalEvents eps i hitI v1 v2 u1 u2
    let r := feedCf vis (st.s, st.cf) evs
    -- the query is broken off when the visitor returned a breaking value for one of `evs`
    .ok (⟨visited, r.1, r.2⟩, !evs.isEmpty && ControlFlow.shouldBreak r.2)

/-- Running a query visitor over the hits. -/
def globalQuery {S C : Type} [ControlFlow C] (p : Pline T) (vis : Visitor T S C) (eps : T)
    (i j : Nat) (v1 v2 : Vertex T) : GlobalState S C → List Nat → M (GlobalState S C)
  | st, [] => .ok st
  | st, h :: hs => do
    let r ← globalHit p vis eps i j v1 v2 st h
    if r.2 then .ok r.1 else globalQuery p vis eps i j v1 v2 r.1 hs

/-- A box grown by `eps` on all sides (`polyline/internal/pline_intersects.rs:220-223`). -/
def AABB.grow (b : AABB T) (eps : T) : AABB T :=
  ⟨b.minX - eps, b.minY - eps, b.maxX + eps, b.maxY + eps⟩

/-- Loop over the items of the index, `polyline/internal/pline_intersects.rs:144-231`. -/
def globalLoop {S C : Type} [ControlFlow C] (p : Pline T) (idx : Index T) (vis : Visitor T S C)
    (eps : T) : GlobalState S C → List (Nat × AABB T) → M (GlobalState S C)
  | st, [] => .ok st
  | st, (i, aabb) :: rest => do
    let j := p.nextWrap i
    let v1 ← p.at i
    let v2 ← p.at j
    let st ← globalQuery p vis eps i j v1 v2 st (idx.query (aabb.grow eps))
    if ControlFlow.shouldBreak st.cf then .ok st else globalLoop p idx vis eps st rest

/-- `visit_global_self_intersects`, `polyline/internal/pline_intersects.rs:120-234`. -/
def visitGlobalSelfIntersects {S C : Type} [ControlFlow C] (p : Pline T) (idx : Index T)
    (vis : Visitor T S C) (s : S) (eps : T) : M (S × C) :=
  if p.vertexCount < 3 then .ok (s, ControlFlow.continuing)
  else do
    let st ← globalLoop p idx vis eps ⟨[], s, ControlFlow.continuing⟩ idx.items
    .ok (st.s, st.cf)

/-- `SelfIntersectsInclude`, `polyline/pline_types.rs:251-260`. -/
inductive SelfIntrInclude where
  | all
  | «local»
  | global
deriving DecidableEq, Repr

/-- `create_approx_aabb_index`, `polyline/traits.rs:893-914`. -/
def Pline.approxIndex (p : Pline T) (env : Env T) : Index T := env.build p.approxAabbBoxes.2

/-- `visit_self_intersects_opt`, `polyline/traits.rs:1276-1315`. -/
def Pline.visitSelfIntersectsOpt {S C : Type} [ControlFlow C] (p : Pline T) (env : Env T)
    (vis : Visitor T S C) (s : S) (aabbIndex : Option (Index T)) (eps : T)
    (inc : SelfIntrInclude) : M (S × C) :=
  if p.vertexCount < 2 then .ok (s, ControlFlow.continuing)
  else if inc = .local then visitLocalSelfIntersects p vis s eps
  else
    let index := aabbIndex.getD (p.approxIndex env)
    if inc = .global then visitGlobalSelfIntersects p index vis s eps
    else do
      let r ← visitLocalSelfIntersects p vis s eps
      if ControlFlow.shouldBreak r.2 then .ok r
      else visitGlobalSelfIntersects p index vis r.1 eps

/-- control flow that never breaks (`Control::Continue`) -/
instance : ControlFlow Unit := ⟨(), fun _ => false⟩

/-- `Visitor` of `all_self_intersects_as_basic`, `polyline/internal/pline_intersects.rs:249-280`. -/
def basicVisitor (includeOverlapping : Bool) : Visitor T (List (BasicIntr T)) Unit := fun acc e =>
  match e with
  | .basic b => (acc ++ [b], ())
  | .overlapping o =>
    if includeOverlapping then
      (acc ++ [⟨o.startIndex1, o.startIndex2, o.point1⟩, ⟨o.startIndex1, o.startIndex2, o.point2⟩], ())
    else (acc, ())

/-- `all_self_intersects_as_basic`, `polyline/internal/pline_intersects.rs:239-291`. -/
def allSelfIntersectsAsBasic (p : Pline T) (idx : Index T) (includeOverlapping : Bool) (eps : T) :
    M (List (BasicIntr T)) := do
  let r ← visitLocalSelfIntersects p (basicVisitor includeOverlapping) [] eps
  let r ← visitGlobalSelfIntersects p idx (basicVisitor includeOverlapping) r.1 eps
  .ok r.1

/-- `PlineIntersectsCollection`, `polyline/pline_types.rs:487-490`. -/
structure IntrCollection (T : Type) where
  basic : List (BasicIntr T)
  overlapping : List (OverlapIntr T)
deriving DecidableEq, Repr

/-- State of the search in `find_intersects`. -/
structure FindState (T : Type) where
  basic : List (BasicIntr T)
  overlapping : List (OverlapIntr T)
  dup1 : List Nat
  dup2 : List Nat

/-- closure `skip_intr_at_end`, `polyline/internal/pline_intersects.rs:348-356`. -/
def skipIntrAtEnd (p1 p2 : Pline T) (eps : T) (i1 i2 : Nat) (p1v2 p2v2 : Vertex T) (intr : V2 T) :
    Bool :=
  let open1LastIdx := p1.vertexCount - 2
  let open2LastIdx := p2.vertexCount - 2
  (p1v2.pos.fuzzyEqEps intr eps && (p1.closed || i1 != open1LastIdx))
    || (p2v2.pos.fuzzyEqEps intr eps && (p2.closed || i2 != open2LastIdx))

/-- `query_visitor` of `find_intersects`, `polyline/internal/pline_intersects.rs:343-397`. -/
def findHit (p1 p2 : Pline T) (eps : T) (i2 : Nat) (p2v1 p2v2 : Vertex T) (st : FindState T)
    (i1 : Nat) : M (FindState T) := do
  let j1 := p1.nextWrap i1
  let p1v1 ← p1.at i1
  let p1v2 ← p1.at j1
  let skip := skipIntrAtEnd p1 p2 eps i1 i2 p1v2 p2v2
  match plineSegIntr p1v1 p1v2 p2v1 p2v2 eps with
  | .noIntersect => .ok st
  | .tangentIntersect point | .oneIntersect point =>
    .ok (if !skip point then { st with basic := st.basic ++ [⟨i1, i2, point⟩] } else st)
  | .twoIntersects point1 point2 =>
    let b := if !skip point1 then st.basic ++ [⟨i1, i2, point1⟩] else st.basic
    let b := if !skip point2 then b ++ [⟨i1, i2, point2⟩] else b
    .ok { st with basic := b }
  | .overlappingLines point1 point2 | .overlappingArcs point1 point2 =>
    .ok { basic := st.basic
          overlapping := st.overlapping ++ [⟨i1, i2, point1, point2⟩]
          dup1 := if p1v2.pos.fuzzyEqEps point1 eps || p1v2.pos.fuzzyEqEps point2 eps then
              p1.nextWrap i1 :: st.dup1 else st.dup1
          dup2 := if p2v2.pos.fuzzyEqEps point1 eps || p2v2.pos.fuzzyEqEps point2 eps then
              p2.nextWrap i2 :: st.dup2 else st.dup2 }

/-- body of the loop over `pline2`'s segments, `polyline/internal/pline_intersects.rs:340-410`. -/
def findSeg (p1 p2 : Pline T) (idx1 : Index T) (eps : T) (st : FindState T) (ij : Nat × Nat) :
    M (FindState T) := do
  let p2v1 ← p2.at ij.1
  let p2v2 ← p2.at ij.2
  let bb := segFastApproxBoundingBox p2v1 p2v2
  (idx1.query (bb.grow eps)).foldlM (findHit p1 p2 eps ij.1 p2v1 p2v2) st

/-- Whether a basic intersect is kept by the duplicate filter,
`polyline/internal/pline_intersects.rs:419-437`. -/
def keepBasic (p1 p2 : Pline T) (eps : T) (dup1 dup2 : List Nat) (intr : BasicIntr T) :
    M Bool := do
  let drop1 ← if dup1.contains intr.startIndex1 then do
      let v ← p1.at intr.startIndex1
      .ok (intr.point.fuzzyEqEps v.pos eps)
    else .ok false
  if drop1 then .ok false
  else do
    let drop2 ← if dup2.contains intr.startIndex2 then do
        let v ← p2.at intr.startIndex2
        .ok (intr.point.fuzzyEqEps v.pos eps)
      else .ok false
    .ok (!drop2)

/-- `find_intersects`, `polyline/internal/pline_intersects.rs:305-441`. -/
def findIntersects (env : Env T) (p1 p2 : Pline T) (aabbIndex1 : Option (Index T)) (eps : T) :
    M (IntrCollection T) :=
  if p1.vertexCount < 2 || p2.vertexCount < 2 then .ok ⟨[], []⟩
  else do
    let idx1 := aabbIndex1.getD (p1.approxIndex env)
    let st ← p2.segIndexes.foldlM (findSeg p1 p2 idx1 eps) ⟨[], [], [], []⟩
    if st.dup1.isEmpty && st.dup2.isEmpty then .ok ⟨st.basic, st.overlapping⟩
    else do
      let kept ← st.basic.filterM (keepBasic p1 p2 eps st.dup1 st.dup2)
      .ok ⟨kept, st.overlapping⟩

/-- `OverlappingSlice`, `polyline/internal/pline_intersects.rs:448-459`. -/
structure OverlapSlice (T : Type) where
  startIndexes : Nat × Nat
  endIndexes : Nat × Nat
  viewData : ViewData T
  isLoop : Bool
  opposingDirections : Bool
deriving DecidableEq, Repr

/-- `OverlappingSlice::new`, `polyline/internal/pline_intersects.rs:465-643`. -/
def OverlapSlice.new (p1 p2 : Pline T) (startIntr : OverlapIntr T) (endIntr : Option (OverlapIntr T))
    (eps : T) : M (OverlapSlice T) := do
  let startV1 ← p1.at startIntr.startIndex1
  let startV2 ← p1.at (p1.nextWrap startIntr.startIndex1)
  let startU1 ← p2.at startIntr.startIndex2
  let startU2 ← p2.at (p2.nextWrap startIntr.startIndex2)
  let t1 := segTangentVector startV1 startV2 startIntr.point1
  let t2 := segTangentVector startU1 startU2 startIntr.point1
  let opposing := lt (t1.dot t2) 0
  let startIndexes := (startIntr.startIndex1, startIntr.startIndex2)
  match endIntr with
  | none =>
    let split1 := segSplitAtPoint startU1 startU2 startIntr.point1 eps
    let split2 := segSplitAtPoint split1.splitVertex startU2 startIntr.point2 eps
    let updatedStart := split2.updatedStart
    .ok ⟨startIndexes, startIndexes,
      ⟨startIndexes.2, 0, updatedStart, updatedStart.bulge, startIntr.point2, false⟩,
      false, opposing⟩
  | some endIntr =>
    if endIntr.point2.fuzzyEqEps startIntr.point1 eps then do
      let l ← p2.at (p2.vertexCount - 1)
      .ok ⟨startIndexes, startIndexes,
        ⟨startIndexes.2, p2.vertexCount - 1, startU1, l.bulge, endIntr.point2, false⟩,
        true, opposing⟩
    else
      let endIndexes := (endIntr.startIndex1, endIntr.startIndex2)
      let endIndexOffset := p2.fwdDist startIndexes.2 endIntr.startIndex2
      if startIntr.startIndex2 = endIntr.startIndex2 then
        let split1 := segSplitAtPoint startU1 startU2 startIntr.point1 eps
        let split2 := segSplitAtPoint split1.splitVertex startU2 endIntr.point2 eps
        let updatedStart := split2.updatedStart
        .ok ⟨startIndexes, endIndexes,
          ⟨startIndexes.2, endIndexOffset, updatedStart, updatedStart.bulge, endIntr.point2, false⟩,
          false, opposing⟩
      else do
        let split1 := segSplitAtPoint startU1 startU2 startIntr.point1 eps
        let updatedStart := split1.splitVertex
        let endU1 ← p2.at endIntr.startIndex2
        let endU2 ← p2.at (p2.nextWrap endIntr.startIndex2)
        let esplit1 := segSplitAtPoint endU1 endU2 endIntr.point1 eps
        let esplit2 := segSplitAtPoint esplit1.splitVertex endU2 endIntr.point2 eps
        .ok ⟨startIndexes, endIndexes,
          ⟨startIndexes.2, endIndexOffset, updatedStart, esplit2.updatedStart.bulge,
            endIntr.point2, false⟩, false, opposing⟩

/-- The comparison used for sorting, `polyline/internal/pline_intersects.rs:693-701`
(`pline2.at` is in range for every intersect of `pline2`; out of range it would panic, here the
distance comparison is skipped). -/
def overlapCmp (p2 : Pline T) (a b : OverlapIntr T) : Ordering :=
  (compare a.startIndex2 b.startIndex2).then
    (match p2.get a.startIndex2 with
     | some s => totalCmp (distSquared s.pos a.point1) (distSquared s.pos b.point1)
     | none => .eq)

/-- joining loop, `polyline/internal/pline_intersects.rs:703-726`. -/
def joinLoop (p1 p2 : Pline T) (eps : T) :
    OverlapIntr T → Option (OverlapIntr T) → V2 T → List (OverlapIntr T) →
      M (List (OverlapSlice T))
  | startIntr, endIntr, _, [] => do
    let s ← OverlapSlice.new p1 p2 startIntr endIntr eps
    .ok [s]
  | startIntr, endIntr, currentEnd, intr :: rest =>
    if !intr.point1.fuzzyEqEps currentEnd eps then do
      let s ← OverlapSlice.new p1 p2 startIntr endIntr eps
      let r ← joinLoop p1 p2 eps intr none intr.point2 rest
      .ok (s :: r)
    else joinLoop p1 p2 eps startIntr (some intr) intr.point2 rest

/-- `sort_and_join_overlapping_intersects`, `polyline/internal/pline_intersects.rs:662-752`; the
`debug_assert` of lines 679-689 is not modelled (release build). -/
def sortAndJoin (env : Env T) (intersects : List (OverlapIntr T)) (p1 p2 : Pline T) (eps : T) :
    M (List (OverlapSlice T)) :=
  match env.sortBy (overlapCmp p2) intersects with
  | [] => .ok []
  | startIntr :: rest => do
    let result ← joinLoop p1 p2 eps startIntr none startIntr.point2 rest
    match result with
    | [] => .ok []
    | [s] => .ok [s]
    | first :: second :: more =>
      let lastSlice := (second :: more).getLast (by simp)
      if lastSlice.viewData.endPoint.fuzzyEqEps first.viewData.updatedStart.pos eps then do
        let p20 ← p2.at 0
        let extra := if lastSlice.viewData.endPoint.fuzzyEqEps p20.pos eps then 1 else 0
        let first' : OverlapSlice T :=
          { first with
            startIndexes := lastSlice.startIndexes
            viewData := { first.viewData with
              updatedStart := lastSlice.viewData.updatedStart
              endIndexOffset := first.viewData.endIndexOffset
                + lastSlice.viewData.endIndexOffset + extra } }
        .ok (first' :: (second :: more).dropLast)
      else .ok (first :: second :: more)

end Cavc
