import Verif.Model.Shape
import Verif.Spec.Offset

/-! # Specification of shapes -/

namespace Cavc
variable {T : Type} [Scalar T]

/-- A polyline that can be a loop of a shape, with the index of its segments. -/
structure IndexedPline.Ready (ip : IndexedPline T) : Prop where
  serves : ip.index.Serves ip.pline
  boxes : ip.boxes = ip.pline.segs.map segBox
  nontrivial : 2 ≤ ip.pline.verts.length

/-- The loops in the order of the index of the shape: counter clockwise ones first. -/
def Shape.loops (s : Shape T) : List (IndexedPline T) := s.ccw ++ s.cw

/-- The smallest box around the boxes of all segments. -/
def Pline.loopBox (p : Pline T) : Option (AABB T) := boundsOf (p.segs.map segBox)

/-- All loops are ready and the index of the shape has one box for each loop, in order. -/
structure Shape.WellFormed (s : Shape T) : Prop where
  ready : ∀ ip ∈ s.loops, ip.Ready
  boxes : s.bounds.map some = s.loops.map fun ip => ip.pline.loopBox
  index : s.plinesIndex.For s.bounds

/-! ## Offset of a shape -/

/-- Offset loops are skipped if their orientation turned over: a positive offset of a counter
clockwise loop with negative area, a negative offset of a clockwise loop with positive area. -/
def TurnedOver (isCcw : Bool) (offset : T) (r : Pline T) : Bool :=
  if isCcw then Scalar.gt offset 0 && Scalar.lt r.area 0 else Scalar.lt offset 0 && Scalar.gt r.area 0

/-- The offset loops, with the number of the loop they come from: `rss` are the parallel offsets of the
loops of `s`; those that are not turned over are taken in order, loops of negative area in `cw` and
the others in `ccw`. -/
structure ShapeLoops (env : Env T) (s : Shape T) (offset : T) (o : ShapeOffsetOptions T) (ccw cw : List (OffsetLoop T)) : Prop where
  offsets : ∃ rss, List.Forall₂ (fun (ip : IndexedPline T) rs => parallelOffset env ip.pline offset
      ⟨some ip.index, false, o.posEqualEps, o.sliceJoinEps, o.offsetDistEps⟩ = .ok rs) s.loops rss ∧
    (ccw.map fun l => (l.parent, l.ip.pline)) = (rss.zipIdx.flatMap fun (x : List (Pline T) × Nat) =>
      (x.1.filter fun r => !TurnedOver (decide (x.2 < s.ccw.length)) offset r && !Scalar.lt r.area 0).map fun r => (x.2, r)) ∧
    (cw.map fun l => (l.parent, l.ip.pline)) = (rss.zipIdx.flatMap fun (x : List (Pline T) × Nat) =>
      (x.1.filter fun r => !TurnedOver (decide (x.2 < s.ccw.length)) offset r && Scalar.lt r.area 0).map fun r => (x.2, r))
  own : ∀ l ∈ ccw ++ cw, l.ip = IndexedPline.new env l.ip.pline

/-- The points in which two polylines meet: isolated intersects and the ends of overlaps. -/
def IntrCollection.cutPoints (r : IntrCollection T) : List (BasicIntr T) :=
  r.basic ++ r.overlapping.flatMap fun q => [⟨q.startIndex1, q.startIndex2, q.point1⟩, ⟨q.startIndex1, q.startIndex2, q.point2⟩]

/-- `pts` are the points in which the loops `i` and `j` with overlapping boxes meet. -/
def LoopsMeet (env : Env T) (loops : List (OffsetLoop T)) (eps : T) (i j : Nat) (pts : List (BasicIntr T)) : Prop :=
  ∃ l1 l2 b1 b2 r, loops[i]? = some l1 ∧ loops[j]? = some l2 ∧ l1.ip.pline.loopBox = some b1 ∧ l2.ip.pline.loopBox = some b2 ∧
    b2.overlaps b1 = true ∧ findIntersects env l1.ip.pline l2.ip.pline (some l1.ip.index) eps = .ok r ∧
    pts = r.cutPoints ∧ pts ≠ []

/-- The intersects between the loops: one entry for each pair of loops that meet, and no other. -/
structure LoopCuts (env : Env T) (loops : List (OffsetLoop T)) (eps : T) (sets : List (SlicePointSet T)) : Prop where
  sound : ∀ x ∈ sets, x.loop1 < x.loop2 ∧ LoopsMeet env loops eps x.loop1 x.loop2 x.points
  complete : ∀ i j pts, i < j → LoopsMeet env loops eps i j pts → ∃ x ∈ sets, x.loop1 = i ∧ x.loop2 = j
  once : sets.Pairwise fun x y => ¬ (x.loop1 = y.loop1 ∧ x.loop2 = y.loop2)

/-- The cut points of loop number `i`: the points of all pairs it belongs to. -/
def cutsOfLoop (sets : List (SlicePointSet T)) (i : Nat) : List (Nat × V2 T) :=
  sets.flatMap fun x =>
    if x.loop1 = i then x.points.map fun b => (b.startIndex1, b.point)
    else if x.loop2 = i then x.points.map fun b => (b.startIndex2, b.point)
    else []

/-- The middle of the first segment of the slice is clear of all input loops other than number
`parent`. -/
def MidClear (inputs : List (IndexedPline T)) (offset : T) (o : ShapeOffsetOptions T) (parent : Nat) (raw : Pline T) (d : ViewData T) : Prop :=
  ∃ vs a b, d.Reads raw vs ∧ vs[0]? = some a ∧ vs[1]? = some b ∧
    ∀ j ip, inputs[j]? = some ip → j ≠ parent → PointClear ip.pline offset o.posEqualEps o.offsetDistEps (segMidpoint a b)

/-- `ss` are the slices of `raw` for the gaps, in order, except those that are empty or do not
satisfy `P`. -/
inductive KeptBy (raw : Pline T) (eps : T) (P : ViewData T → Prop) : List ((Nat × V2 T) × (Nat × V2 T)) → List (ViewData T) → Prop
  | nil : KeptBy raw eps P [] []
  | empty (a b : Nat × V2 T) (gs : List ((Nat × V2 T) × (Nat × V2 T))) (ss : List (ViewData T)) :
      ViewData.fromSlicePoints raw a.2 a.1 b.2 b.1 eps = .ok none → KeptBy raw eps P gs ss → KeptBy raw eps P ((a, b) :: gs) ss
  | dropped (a b : Nat × V2 T) (s : ViewData T) (gs : List ((Nat × V2 T) × (Nat × V2 T))) (ss : List (ViewData T)) :
      ViewData.fromSlicePoints raw a.2 a.1 b.2 b.1 eps = .ok (some s) → ¬ P s → KeptBy raw eps P gs ss → KeptBy raw eps P ((a, b) :: gs) ss
  | kept (a b : Nat × V2 T) (s : ViewData T) (gs : List ((Nat × V2 T) × (Nat × V2 T))) (ss : List (ViewData T)) :
      ViewData.fromSlicePoints raw a.2 a.1 b.2 b.1 eps = .ok (some s) → P s → KeptBy raw eps P gs ss → KeptBy raw eps P ((a, b) :: gs) (s :: ss)

/-- The cut points `cuts` are those of `es`, ordered along the polyline `raw`: by segment, and then by
distance from the start of the segment. -/
structure SortedCuts (raw : Pline T) (es cuts : List (Nat × V2 T)) : Prop where
  perm : cuts.Perm es
  order : TotalCmp T → cuts.Pairwise fun a b => a.1 < b.1 ∨ (a.1 = b.1 ∧ ∀ v, raw.verts[a.1]? = some v →
    Scalar.totalCmp (distSquared a.2 v.pos) (distSquared b.2 v.pos) ≠ .gt)

/-- What is kept of a loop with cut points `es`: without cut points the whole loop (`whole`), if it is
clear; with one cut point the whole loop as a slice, if it is clear; otherwise the clear slices from
each cut point to the next, around the loop. -/
inductive Dissected (inputs : List (IndexedPline T)) (offset : T) (o : ShapeOffsetOptions T) (l : OffsetLoop T) (es : List (Nat × V2 T)) :
    List (ViewData T) → Bool → Prop
  | uncut (d : ViewData T) (whole : Bool) : es = [] → ViewData.fromEntirePline l.ip.pline = .ok d →
      (whole = true ↔ MidClear inputs offset o l.parent l.ip.pline d) → Dissected inputs offset o l es [] whole
  | onceKept (d : ViewData T) : es.length = 1 → ViewData.fromEntirePline l.ip.pline = .ok d →
      MidClear inputs offset o l.parent l.ip.pline d → Dissected inputs offset o l es [d] false
  | onceDropped (d : ViewData T) : es.length = 1 → ViewData.fromEntirePline l.ip.pline = .ok d →
      ¬ MidClear inputs offset o l.parent l.ip.pline d → Dissected inputs offset o l es [] false
  | pieces (cuts : List (Nat × V2 T)) (ss : List (ViewData T)) : 2 ≤ es.length → SortedCuts l.ip.pline es cuts →
      KeptBy l.ip.pline o.posEqualEps (MidClear inputs offset o l.parent l.ip.pline) (neighbours (cuts ++ cuts.take 1)) ss →
      Dissected inputs offset o l es ss false

/-- The slice belongs to a loop and can be read. -/
def DissectedSlice.Reads (s : DissectedSlice T) (loops : List (OffsetLoop T)) (vs : List (Vertex T)) : Prop :=
  ∃ l, loops[s.source]? = some l ∧ s.vdata.Reads l.ip.pline vs

/-- `vs` are the vertexes of the slices number `used` one after the other; each next slice starts near
the end of the slice before, and it belongs to the same loop if there is such a slice. -/
structure ShapeChain (loops : List (OffsetLoop T)) (slices : List (DissectedSlice T)) (o : ShapeOffsetOptions T) (before used : List Nat)
    (vs : List (Vertex T)) : Prop where
  nonempty : used ≠ []
  chain : ∃ ss vss, used.map (fun i => slices[i]?) = ss.map some ∧
    List.Forall₂ (fun (s : DissectedSlice T) ws => s.Reads loops ws) ss vss ∧ vs = appendVertexes o.posEqualEps [] vss.flatten
  linked : ∀ k s s', (used[k]?.bind fun i => slices[i]?) = some s → (used[k + 1]?.bind fun i => slices[i]?) = some s' →
    JoinNear o.sliceJoinEps s.vdata.endPoint s'.vdata.updatedStart.pos
  prefers : ∀ k s s' i t, (used[k]?.bind fun i => slices[i]?) = some s → (used[k + 1]?.bind fun i => slices[i]?) = some s' →
    s'.source ≠ s.source → slices[i]? = some t → JoinNear o.sliceJoinEps s.vdata.endPoint t.vdata.updatedStart.pos →
    i ∉ before ++ used.take (k + 1) → t.source ≠ s.source
  complete : ∀ s i s', (used.getLast?.bind fun i => slices[i]?) = some s → slices[i]? = some s' →
    JoinNear o.sliceJoinEps s.vdata.endPoint s'.vdata.updatedStart.pos → i ∈ before ++ used

/-- The polyline made of a chain. -/
def chainLoop (vs : List (Vertex T)) : Pline T := if 2 < vs.length then ⟨vs.dropLast, true⟩ else ⟨vs, false⟩

/-- All chains with the polylines made of them. -/
inductive ShapeRounds (loops : List (OffsetLoop T)) (slices : List (DissectedSlice T)) (o : ShapeOffsetOptions T) :
    List Nat → List (List Nat) → List (Pline T) → Prop
  | nil (before : List Nat) : ShapeRounds loops slices o before [] []
  | cons (before used : List Nat) (useds : List (List Nat)) (vs : List (Vertex T)) (more : List (Pline T)) :
      ShapeChain loops slices o before used vs → ShapeRounds loops slices o (before ++ used) useds more →
      ShapeRounds loops slices o before (used :: useds) (chainLoop vs :: more)

/-- The slices of all loops, in the order of the loops, with the number of their loop. -/
def slicesOfLoops (dss : List (List (ViewData T) × Bool)) : List (DissectedSlice T) :=
  dss.zipIdx.flatMap fun x => x.1.1.map fun d => ⟨x.2, d⟩

/-- The loops kept whole. -/
def wholeLoops (ls : List (OffsetLoop T)) (dss : List (List (ViewData T) × Bool)) : List (Pline T) :=
  ((ls.zip dss).filter fun x => x.2.2).map fun x => x.1.ip.pline

/-- What is made of the offset loops: they are cut where they meet, `dss` are the slices kept of each
loop and whether the loop is kept whole, and `rs` are the polylines stitched from the slices, each
slice used exactly once. -/
structure ShapePieces (env : Env T) (inputs : List (IndexedPline T)) (offset : T) (o : ShapeOffsetOptions T) (loops : List (OffsetLoop T))
    (dss : List (List (ViewData T) × Bool)) (rs : List (Pline T)) : Prop where
  dissected : ∃ sets, LoopCuts env loops o.posEqualEps sets ∧ dss.length = loops.length ∧
    ∀ (i : Nat) (l : OffsetLoop T) (ss : List (ViewData T)) (whole : Bool), loops[i]? = some l → dss[i]? = some (ss, whole) →
      Dissected inputs offset o l (cutsOfLoop sets i) ss whole
  stitched : ∃ useds, ShapeRounds loops (slicesOfLoops dss) o [] useds rs ∧
    useds.flatten.Perm (List.range (slicesOfLoops dss).length)

end Cavc
