import Verif.Model.Boolean
import Verif.Spec.View
import Mathlib.Data.List.Forall2

/-! # Specification of stitching slices into polylines -/

namespace Cavc
variable {T : Type} [Scalar T]

/-- Append a vertex; if it repeats the last position only the bulge is taken over. -/
def appendVertex (eps : T) (acc : List (Vertex T)) (v : Vertex T) : List (Vertex T) :=
  match acc.getLast? with
  | none => [v]
  | some l => if l.pos.fuzzyEqEps v.pos eps then acc.dropLast ++ [⟨l.x, l.y, v.bulge⟩] else acc ++ [v]

/-- Append vertexes one by one. -/
def appendVertexes (eps : T) (acc vs : List (Vertex T)) : List (Vertex T) := vs.foldl (appendVertex eps) acc

/-- Vertex lists put end to start: the last vertex of what is there is given up for the first vertex
of the next list. -/
def chainVertexes (eps : T) (vss : List (List (Vertex T))) : List (Vertex T) :=
  vss.foldl (fun acc vs => appendVertexes eps acc.dropLast vs) []

/-- `b` is within `eps` of `a` in both coordinates. -/
def Near (eps : T) (a b : V2 T) : Prop := (AABB.ofPoint b).overlaps ((AABB.ofPoint a).grow eps) = true

/-- The slice can be read, and its vertexes are `vs`. -/
def BoolSlice.Reads (s : BoolSlice T) (p1 p2 : Pline T) (vs : List (Vertex T)) : Prop :=
  s.toPline p1 p2 = .ok ⟨vs, false⟩ ∧ vs ≠ []

/-- Each slice after the first starts near where the chain of the vertex lists before it ends. -/
def Linked (eps : T) (vss : List (List (Vertex T))) (slices : List (BoolSlice T)) : Prop :=
  ∀ k s, 1 ≤ k → slices[k]? = some s →
    ∃ e, (chainVertexes eps (vss.take k)).getLast? = some e ∧ Near eps e.pos s.startPoint

/-- The result polyline is the closed chain of its subslices, which are the slices number `used`. -/
structure Stitched (slices : List (BoolSlice T)) (p1 p2 : Pline T) (eps : T) (used : List Nat) (r : BooleanResultPline T) : Prop where
  subslices : used.map (fun i => slices[i]?) = r.subslices.map some
  nonempty : r.subslices ≠ []
  closed : r.pline.closed = true
  nontrivial : 2 ≤ r.pline.verts.length
  chain : ∃ vss, List.Forall₂ (fun s vs => s.Reads p1 p2 vs) r.subslices vss ∧
    r.pline.verts = (chainVertexes eps vss).dropLast ∧ Linked eps vss (r.subslices ++ r.subslices.take 1)

/-- A selector answers every non-empty question with one of the choices or with none. -/
def Selector.Sane (sel : Selector) : Prop :=
  ∀ cur avail, avail ≠ [] → ∃ c, sel cur avail = .ok c ∧ ∀ j, c = some j → j ∈ avail

/-- The points at which a polyline is cut: its intersects and the ends of the overlaps. -/
def BoolProc.cutPoints (b : BoolProc T) : List (V2 T) :=
  b.intersects.map (·.point) ++ b.overlappingSlices.flatMap fun s => [s.viewData.updatedStart.pos, s.viewData.endPoint]

/-- `pos` is one of the cut points on segment `i` (or the end vertex of that segment, if the cut
point is there). -/
def CutAt (p : Pline T) (eps : T) (pts : List (Nat × V2 T)) (i : Nat) (pos : V2 T) : Prop :=
  ∃ a ∈ pts, a.1 = i ∧ (pos = a.2 ∨ ∃ w, cycAt p (i + 1) = some w ∧ w.pos.fuzzyEqEps a.2 eps = true ∧ pos = w.pos)

/-- The cut points from which the first (second) polyline goes on without an overlap: the intersects,
and the end of each overlap in the direction of that polyline. The data of an overlap are in the
direction of the second polyline. -/
def BoolProc.leavePoints (b : BoolProc T) (second : Bool) : List (V2 T) :=
  b.intersects.map (·.point) ++ b.overlappingSlices.map fun s =>
    if second = false ∧ s.opposingDirections = true then s.viewData.updatedStart.pos else s.viewData.endPoint

/-- The piece starts at one of the points `starts` (a position that is not near itself, with a
coordinate that is not a number, is exempt). -/
def StartsAt (p : Pline T) (eps : T) (starts : List (Nat × V2 T)) (s : BoolSlice T) : Prop :=
  s.viewData.updatedStart.pos.fuzzyEqEps s.viewData.updatedStart.pos eps = true →
    CutAt p eps starts s.viewData.startIndex s.viewData.updatedStart.pos

/-- `s` is a piece of `p` between two cut points that follow each other, and its test point passes
the test. -/
structure IsPiece (p : Pline T) (eps : T) (pts : List (Nat × V2 T)) (test : V2 T → Bool) (s : BoolSlice T) : Prop where
  range : s.viewData.InRange p
  forward : s.viewData.inverted = false
  start : CutAt p eps pts s.viewData.startIndex s.viewData.updatedStart.pos
  /-- it ends `d` segments further, without a cut point on the segments in between -/
  stop : ∃ d, d ≤ p.verts.length ∧ CutAt p eps pts ((s.viewData.startIndex + d) % p.verts.length) s.viewData.endPoint ∧
    (∀ t, 1 ≤ t → t < d → ∀ a ∈ pts, a.1 ≠ (s.viewData.startIndex + t) % p.verts.length) ∧
    (s.viewData.endIndexOffset = d ∨ (s.viewData.endIndexOffset + 1 = d ∧
      ∃ v, cycAt p (s.viewData.startIndex + d) = some v ∧ s.viewData.endPoint.fuzzyEqEps v.pos eps = true))
  /-- the middle of its first segment passes the test -/
  tested : ∃ w, test (segMidpoint s.viewData.updatedStart w) = true ∧
    (w.pos = s.viewData.endPoint ∨ cycAt p (s.viewData.startIndex + 1) = some w)

end Cavc
