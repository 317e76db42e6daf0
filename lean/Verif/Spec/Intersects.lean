import Verif.Model.Boolean

/-! # Specification vocabulary for intersects of polylines -/

namespace Cavc
variable {T : Type} [Scalar T]

/-- The isolated intersect points of two segments. -/
def PlineSegIntr.isolated : PlineSegIntr T → List (V2 T)
  | .tangentIntersect p => [p]
  | .oneIntersect p => [p]
  | .twoIntersects p q => [p, q]
  | _ => []

/-- The ends of the common part of two segments that overlap. -/
def PlineSegIntr.overlap : PlineSegIntr T → Option (V2 T × V2 T)
  | .overlappingLines p q => some (p, q)
  | .overlappingArcs p q => some (p, q)
  | _ => none

/-- The box of a segment used for searching. -/
def segBox (s : Vertex T × Vertex T) : AABB T := segFastApproxBoundingBox s.1 s.2

/-- The boxes of two segments meet, when the second is grown by `eps`. -/
def BoxesMeet (s1 s2 : Vertex T × Vertex T) (eps : T) : Prop := (segBox s1).overlaps ((segBox s2).grow eps) = true

/-- A spatial index of the segments of a polyline (any visiting order). -/
def Index.Serves (idx : Index T) (p : Pline T) : Prop := idx.For (p.segs.map segBox)

/-- Another segment of the polyline starts where segment `i` ends. -/
def Pline.Continues (p : Pline T) (i : Nat) : Prop := p.closed = true ∨ i + 1 < p.segmentCount

/-- Index of the segment that starts where segment `i` ends. -/
def Pline.following (p : Pline T) (i : Nat) : Nat := (i + 1) % p.verts.length

/-- The point is the end of a segment at which another segment of the polyline starts. -/
def Pline.AtJoint (p : Pline T) (i : Nat) (s : Vertex T × Vertex T) (pt : V2 T) (eps : T) : Prop :=
  s.2.pos.fuzzyEqEps pt eps = true ∧ p.Continues i

/-- The point is the start of segment `i` (which is `s`), and that vertex is an end of one of the
overlaps, each given by the segment it belongs to and its two ends, on the preceding segment. -/
def Pline.AtOverlapEnd (p : Pline T) (overlaps : List (Nat × V2 T × V2 T)) (i : Nat) (s : Vertex T × Vertex T) (pt : V2 T) (eps : T) : Prop :=
  pt.fuzzyEqEps s.1.pos eps = true ∧
    ∃ q ∈ overlaps, p.following q.1 = i ∧ (s.1.pos.fuzzyEqEps q.2.1 eps = true ∨ s.1.pos.fuzzyEqEps q.2.2 eps = true)

/-- The overlaps as parts of the first polyline. -/
def IntrCollection.overlapsOn1 (r : IntrCollection T) : List (Nat × V2 T × V2 T) := r.overlapping.map fun o => (o.startIndex1, o.point1, o.point2)

/-- The overlaps as parts of the second polyline. -/
def IntrCollection.overlapsOn2 (r : IntrCollection T) : List (Nat × V2 T × V2 T) := r.overlapping.map fun o => (o.startIndex2, o.point1, o.point2)

end Cavc
