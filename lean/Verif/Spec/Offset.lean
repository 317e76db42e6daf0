import Verif.Model.Offset
import Verif.Spec.Stitch
import Verif.Spec.Overlap
import Verif.Spec.Intersects
import Verif.Spec.SelfIntersects

/-! # Specification of the parallel offset of a polyline -/

namespace Cavc
variable {T : Type} [Scalar T]

/-- The slice can be read, and its vertexes are `vs`. -/
def ViewData.Reads (s : ViewData T) (raw : Pline T) (vs : List (Vertex T)) : Prop :=
  s.toPline raw = .ok ⟨vs, false⟩ ∧ vs ≠ []

/-- A slice that starts at `b` may follow a slice that ends at `a`: the boxes of half width `eps`
around both points meet. -/
def JoinNear (eps : T) (a b : V2 T) : Prop :=
  ((AABB.ofPoint b).grow eps).overlaps ((AABB.ofPoint a).grow eps) = true

/-- `vs` are the vertexes of the slices number `used` put end to start, and each next slice starts
near the end of the slice before. -/
structure OffsetChain (raw : Pline T) (slices : List (ViewData T)) (eps joinEps : T) (used : List Nat)
    (vs : List (Vertex T)) : Prop where
  nonempty : used ≠ []
  chain : ∃ ss vss, used.map (fun i => slices[i]?) = ss.map some ∧
    List.Forall₂ (fun (s : ViewData T) ws => s.Reads raw ws) ss vss ∧ vs = chainVertexes eps vss
  linked : ∀ k s s', (used[k]?.bind fun i => slices[i]?) = some s →
    (used[k + 1]?.bind fun i => slices[i]?) = some s' → JoinNear joinEps s.endPoint s'.updatedStart.pos

/-- No slice outside of `taken` could follow the chain of the slices `used`. -/
def ChainComplete (slices : List (ViewData T)) (joinEps : T) (used taken : List Nat) : Prop :=
  ∀ s i s', (used.getLast?.bind fun i => slices[i]?) = some s → slices[i]? = some s' →
    JoinNear joinEps s.endPoint s'.updatedStart.pos → i ∈ taken

/-- The polylines made of a chain: none if it has only one vertex; a closed polyline without the last
vertex if the result should be closed and first and last position agree; otherwise an open
polyline. -/
inductive ChainResult (isClosed : Bool) (eps : T) (vs : List (Vertex T)) : List (Pline T) → Prop
  | tooShort : vs.length ≤ 1 → ChainResult isClosed eps vs []
  | closed (a b : Vertex T) : 2 ≤ vs.length → isClosed = true → vs.head? = some a → vs.getLast? = some b →
      a.pos.fuzzyEqEps b.pos eps = true → ChainResult isClosed eps vs [⟨vs.dropLast, true⟩]
  | «open» (a b : Vertex T) : 2 ≤ vs.length → vs.head? = some a → vs.getLast? = some b →
      ¬ (isClosed = true ∧ a.pos.fuzzyEqEps b.pos eps = true) → ChainResult isClosed eps vs [⟨vs, false⟩]

/-- How far ahead a segment is, going forward along the raw offset from segment `a` to segment `b` and over its end if need be
(`last` is the number of the last segment). -/
def stepsAhead (last a b : Nat) : Nat := if a ≤ b then b - a else last - a + b

/-- Every slice in the chain is followed by the slice that starts the fewest segments ahead of it, among all slices that are not
yet used and start near its end; among several such slices one that does not lead back to the start of the chain goes first. -/
def ChainNearest (slices : List (ViewData T)) (eps joinEps : T) (last : Nat) (before used : List Nat) : Prop :=
  ∀ k i s₀ s s' t, (used.head?.bind fun i => slices[i]?) = some s₀ → (used[k]?.bind fun i => slices[i]?) = some s →
    (used[k + 1]?.bind fun i => slices[i]?) = some s' →
    slices[i]? = some t → JoinNear joinEps s.endPoint t.updatedStart.pos → i ∉ before ++ used.take (k + 1) →
    stepsAhead last s.startIndex s'.startIndex < stepsAhead last s.startIndex t.startIndex ∨
    (stepsAhead last s.startIndex s'.startIndex = stepsAhead last s.startIndex t.startIndex ∧
      (s'.endPoint.fuzzyEqEps s₀.updatedStart.pos eps = true → t.endPoint.fuzzyEqEps s₀.updatedStart.pos eps = true))

/-- That holds of all chains, where the slices in the chains before are used. -/
def ChainsNearest (slices : List (ViewData T)) (eps joinEps : T) (last : Nat) : List Nat → List (List Nat) → Prop
  | _, [] => True
  | before, used :: useds => ChainNearest slices eps joinEps last before used ∧ ChainsNearest slices eps joinEps last (before ++ used) useds

/-- The result `rs` of one round of stitching that uses the slices `used` after the slices `before`
have been used. -/
def StitchRound (raw : Pline T) (slices : List (ViewData T)) (isClosed : Bool) (eps joinEps : T)
    (before used : List Nat) (rs : List (Pline T)) : Prop :=
  ∃ vs, OffsetChain raw slices eps joinEps used vs ∧ ChainComplete slices joinEps used (before ++ used) ∧
    ChainResult isClosed eps vs rs

/-- All rounds: the lists of used slices and the results belong together. -/
inductive StitchRounds (raw : Pline T) (slices : List (ViewData T)) (isClosed : Bool) (eps joinEps : T) :
    List Nat → List (List Nat) → List (Pline T) → Prop
  | nil (before : List Nat) : StitchRounds raw slices isClosed eps joinEps before [] []
  | cons (before used : List Nat) (useds : List (List Nat)) (rs more : List (Pline T)) :
      StitchRound raw slices isClosed eps joinEps before used rs →
      StitchRounds raw slices isClosed eps joinEps (before ++ used) useds more →
      StitchRounds raw slices isClosed eps joinEps before (used :: useds) (rs ++ more)

/-! ## Slices -/

/-- The segments of `p` whose box meets the square of half width `|offset| - tol` around the point
are all further away from the point than that. -/
def PointClear (p : Pline T) (offset eps tol : T) (pt : V2 T) : Prop :=
  ∀ s ∈ p.segs, (segBox s).overlaps ⟨pt.x - (Scalar.abs offset - tol), pt.y - (Scalar.abs offset - tol),
      pt.x + (Scalar.abs offset - tol), pt.y + (Scalar.abs offset - tol)⟩ = true →
    Scalar.gt (distSquared (segClosestPoint s.1 s.2 pt eps) pt)
      ((Scalar.abs offset - tol) * (Scalar.abs offset - tol)) = true

/-- The segment from `v1` to `v2` has no intersect with the segments of `p` whose box meets its box. -/
def SegClear (p : Pline T) (eps : T) (v1 v2 : Vertex T) : Prop :=
  ∀ s ∈ p.segs, (segBox s).overlaps ((segBox (v1, v2)).grow Scalar.fuzzyEps) = true →
    plineSegIntr v1 v2 s.1 s.2 eps = .noIntersect

/-- The slice stays clear of `p`: its vertexes, the middle of its first and of its last segment, and
its segments do. -/
structure SliceClear (p raw : Pline T) (offset eps tol : T) (s : ViewData T) : Prop where
  clear : ∃ vs, s.Reads raw vs ∧ (∀ v ∈ vs, PointClear p offset eps tol v.pos) ∧
    ∀ i a b, vs[i]? = some a → vs[i + 1]? = some b → SegClear p eps a b ∧
      (i = 0 ∨ i + 2 = vs.length → PointClear p offset eps tol (segMidpoint a b))

/-- The cut points `cuts` are those of `es`, ordered along the polyline `raw`: by segment, and then by
distance from the start of the segment. -/
structure CutOrder (raw : Pline T) (es cuts : List (Nat × V2 T)) : Prop where
  perm : cuts.Perm es
  segments : cuts.Pairwise fun a b => a.1 ≤ b.1
  along : TotalCmp T → cuts.Pairwise fun a b => a.1 = b.1 → ∀ v, raw.verts[a.1]? = some v →
    Scalar.totalCmp (distSquared a.2 v.pos) (distSquared b.2 v.pos) ≠ .gt

/-- Neighbours in a list. -/
def neighbours {α : Type} : List α → List (α × α)
  | a :: b :: l => (a, b) :: neighbours (b :: l)
  | _ => []

/-- The pieces into which a polyline falls when cut: from each cut point to the next one; around, if
the polyline is closed, otherwise from its start and to its end. -/
def gapsOf (closed : Bool) (first last : Nat × V2 T) (cuts : List (Nat × V2 T)) : List ((Nat × V2 T) × (Nat × V2 T)) :=
  if closed then neighbours (cuts ++ cuts.take 1) else neighbours ([first] ++ cuts ++ [last])

/-- `ss` are the slices of `raw` for the gaps, in order, except those that are empty or not clear of `p`. -/
inductive KeptSlices (p raw : Pline T) (offset eps tol : T) : List ((Nat × V2 T) × (Nat × V2 T)) → List (ViewData T) → Prop
  | nil : KeptSlices p raw offset eps tol [] []
  | empty (a b : Nat × V2 T) (gs : List ((Nat × V2 T) × (Nat × V2 T))) (ss : List (ViewData T)) :
      ViewData.fromSlicePoints raw a.2 a.1 b.2 b.1 eps = .ok none →
      KeptSlices p raw offset eps tol gs ss → KeptSlices p raw offset eps tol ((a, b) :: gs) ss
  | dropped (a b : Nat × V2 T) (s : ViewData T) (gs : List ((Nat × V2 T) × (Nat × V2 T))) (ss : List (ViewData T)) :
      ViewData.fromSlicePoints raw a.2 a.1 b.2 b.1 eps = .ok (some s) → ¬ SliceClear p raw offset eps tol s →
      KeptSlices p raw offset eps tol gs ss → KeptSlices p raw offset eps tol ((a, b) :: gs) ss
  | kept (a b : Nat × V2 T) (s : ViewData T) (gs : List ((Nat × V2 T) × (Nat × V2 T))) (ss : List (ViewData T)) :
      ViewData.fromSlicePoints raw a.2 a.1 b.2 b.1 eps = .ok (some s) → SliceClear p raw offset eps tol s →
      KeptSlices p raw offset eps tol gs ss → KeptSlices p raw offset eps tol ((a, b) :: gs) (s :: ss)

/-! ## Cut points -/

/-- The parameters at which a line meets a circle. -/
def LineCircleIntr.params : LineCircleIntr T → List T
  | .noIntersect => []
  | .tangentIntersect t => [t]
  | .twoIntersects t u => [t, u]

/-- The points in which two circles meet. -/
def CircleCircleIntr.points : CircleCircleIntr T → List (V2 T)
  | .noIntersect => []
  | .tangentIntersect a => [a]
  | .twoIntersects a b => [a, b]
  | .overlapping => []

/-- `pt` is a point, other than the start, in which the segment meets a circle. -/
inductive CircleCut (s : Vertex T × Vertex T) (center : V2 T) (radius eps : T) (pt : V2 T) : Prop
  | line (t : T) : s.1.bulgeIsZero = true → t ∈ (lineCircleIntr s.1.pos s.2.pos radius center eps).params →
      Scalar.lt t 0 = false → Scalar.gt t 1 = false → Scalar.gt (Scalar.abs t) eps = true →
      pt = pointFromParametric s.1.pos s.2.pos t → CircleCut s center radius eps pt
  | arc : s.1.bulgeIsZero = false →
      pt ∈ (circleCircleIntr (segArcRadiusAndCenter s.1 s.2).1 (segArcRadiusAndCenter s.1 s.2).2 radius center eps).points →
      s.1.pos.fuzzyEqEps pt eps = false →
      pointWithinArcSweep (segArcRadiusAndCenter s.1 s.2).2 s.1.pos s.2.pos (Scalar.lt s.1.bulge 0) pt eps = true →
      CircleCut s center radius eps pt

/-- `x` is a point in which `raw` meets the circle, with its segment. -/
def CircleCutOf (raw : Pline T) (center : V2 T) (radius eps : T) (x : Nat × V2 T) : Prop :=
  ∃ s, raw.segs[x.1]? = some s ∧
    (segBox s).overlaps ⟨center.x - radius, center.y - radius, center.x + radius, center.y + radius⟩ = true ∧
    CircleCut s center radius eps x.2

/-- `x` is an isolated self intersect point of `raw` with one of its two segments. -/
def SelfCutOf (raw : Pline T) (eps : T) (pairs : List (Nat × Nat)) (x : Nat × V2 T) : Prop :=
  ∃ b : BasicIntr T, .basic b ∈ raw.visitReports eps pairs .all ∧ x.2 = b.point ∧ (x.1 = b.startIndex1 ∨ x.1 = b.startIndex2)

/-- The cut points of a report: an isolated point cuts both segments, an overlap cuts none. -/
def Intr.cutPoints : Intr T → List (Nat × V2 T)
  | .basic b => [(b.startIndex1, b.point), (b.startIndex2, b.point)]
  | .overlapping _ => []

/-- The points at which the raw offset polyline of a closed polyline is cut when self intersects of
the input are not handled: its own self intersects, each once for every report. -/
def CutsSingle (raw : Pline T) (eps : T) (es : List (Nat × V2 T)) : Prop :=
  ∃ pairs, raw.Examined eps pairs ∧ es = (raw.visitReports eps pairs .all).flatMap Intr.cutPoints ∧ ∀ x, x ∈ es ↔ SelfCutOf raw eps pairs x

/-- Otherwise: also the intersects with the raw offset polyline of the other side (`dual`) and, for an
open input, with the circles around its two ends. -/
def CutsDual (p raw : Pline T) (offset eps : T) (dualIntrs : List (BasicIntr T)) (es : List (Nat × V2 T)) : Prop :=
  ∃ pairs, raw.Examined eps pairs ∧ ∀ x, x ∈ es ↔ SelfCutOf raw eps pairs x ∨
    (∃ b ∈ dualIntrs, x = (b.startIndex1, b.point)) ∨
    (p.closed = false ∧ ∃ v, (p.verts.head? = some v ∨ p.verts.getLast? = some v) ∧
      CircleCutOf raw v.pos (Scalar.abs offset) eps x)

/-- The slices of `raw`, cut at the points `es`, that are used for the offset of `p`.  Without cut
points the whole of `raw` is used if its first vertex is clear of `p`. -/
structure OffsetSlices (p raw : Pline T) (offset eps tol : T) (es : List (Nat × V2 T)) (ss : List (ViewData T)) : Prop where
  whole : es = [] → ∀ v, raw.verts.head? = some v →
    (PointClear p offset eps tol v.pos → ∃ s, ViewData.fromEntirePline raw = .ok s ∧ ss = [s]) ∧
    (¬ PointClear p offset eps tol v.pos → ss = [])
  pieces : es ≠ [] → ∃ cuts first last, CutOrder raw es cuts ∧ raw.verts.head? = some first ∧ raw.verts.getLast? = some last ∧
    KeptSlices p raw offset eps tol (gapsOf p.closed (0, first.pos) (raw.verts.length - 1, last.pos) cuts) ss

/-- The slices `ss` are joined to the polylines `rs`: a single slice gives one polyline; otherwise
rounds of stitching use every slice exactly once. -/
structure OffsetJoined (raw : Pline T) (ss : List (ViewData T)) (isClosed : Bool) (eps joinEps : T) (rs : List (Pline T)) : Prop where
  single : ∀ s, ss = [s] → ∃ vs ws a b, s.Reads raw vs ∧ ws = appendVertexes eps [] vs ∧ ws.head? = some a ∧ ws.getLast? = some b ∧
    rs = [if isClosed = true ∧ a.pos.fuzzyEqEps b.pos joinEps = true then ⟨ws.dropLast, true⟩ else ⟨ws, false⟩]
  several : ss.length ≠ 1 → ∃ useds, StitchRounds raw ss isClosed eps joinEps [] useds rs ∧ useds.flatten.Perm (List.range ss.length)

/-- The whole parallel offset: `raw` is the raw offset polyline, cut at the points `es` into the
slices `ss`, which are joined to the results `rs`. -/
structure OffsetOf (env : Env T) (p : Pline T) (offset : T) (opts : OffsetOptions T) (raw : Pline T)
    (es : List (Nat × V2 T)) (ss : List (ViewData T)) (rs : List (Pline T)) : Prop where
  single : p.closed = true → opts.handleSelfIntersects = false → CutsSingle raw opts.posEqualEps es
  dual : ¬ (p.closed = true ∧ opts.handleSelfIntersects = false) →
    ∃ d di, createRawOffsetPolyline p (-offset) opts.posEqualEps = .ok d ∧
      findIntersects env raw d (some (raw.approxIndex env)) opts.posEqualEps = .ok di ∧
      CutsDual p raw offset opts.posEqualEps di.basic es
  slices : OffsetSlices p raw offset opts.posEqualEps opts.offsetDistEps es ss
  joined : OffsetJoined raw ss p.closed opts.posEqualEps opts.sliceJoinEps rs

end Cavc
