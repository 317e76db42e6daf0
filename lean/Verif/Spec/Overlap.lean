import Verif.Spec.Intersects
import Verif.Spec.View
import Mathlib.Data.List.Chain

/-! # Specification of joining overlapping intersects into slices -/

namespace Cavc
variable {T : Type} [Scalar T]

/-- `totalCmp` is a total preorder comparison, as IEEE `total_cmp` is. -/
structure TotalCmp (T : Type) [Scalar T] : Prop where
  swap : ∀ a b : T, Scalar.totalCmp a b = (Scalar.totalCmp b a).swap
  trans : ∀ a b c : T, Scalar.totalCmp a b ≠ .gt → Scalar.totalCmp b c ≠ .gt → Scalar.totalCmp a c ≠ .gt

/-- The indexes of an overlap are vertex indexes of the two polylines. -/
def OverlapIntr.InRange (o : OverlapIntr T) (p1 p2 : Pline T) : Prop :=
  o.startIndex1 < p1.verts.length ∧ o.startIndex2 < p2.verts.length

/-- The second overlap begins where the first one ends. -/
def OverlapIntr.Meets (eps : T) (a b : OverlapIntr T) : Prop := b.point1.fuzzyEqEps a.point2 eps = true

/-- The order of overlaps along `p2`: by segment, then by distance from the start of the segment. -/
def OverlapIntr.Before (p2 : Pline T) (a b : OverlapIntr T) : Prop :=
  a.startIndex2 < b.startIndex2 ∨ (a.startIndex2 = b.startIndex2 ∧ ∀ v, p2.verts[b.startIndex2]? = some v →
    Scalar.totalCmp (distSquared v.pos a.point1) (distSquared v.pos b.point1) ≠ .gt)

/-- `gs` cuts `l` into the longest runs of overlaps that follow each other without a gap. -/
structure IsRuns (eps : T) (l : List (OverlapIntr T)) (gs : List (List (OverlapIntr T))) : Prop where
  flatten : gs.flatten = l
  nonempty : ∀ g ∈ gs, g ≠ []
  inside : ∀ g ∈ gs, g.IsChain (OverlapIntr.Meets eps)
  between : gs.IsChain fun g h => ∀ z ∈ g.getLast?, ∀ a ∈ h.head?, ¬ OverlapIntr.Meets eps z a

/-- The start vertex for the part of the segment from `u1` to `u2` between two of its points. -/
def partStart (u1 u2 : Vertex T) (p q : V2 T) (eps : T) : Vertex T :=
  (segSplitAtPoint (segSplitAtPoint u1 u2 p eps).splitVertex u2 q eps).updatedStart

/-- `s` is the slice of `p2` made from a run that begins with `a` and ends with `z`. -/
structure IsSliceOf (p1 p2 : Pline T) (eps : T) (g : List (OverlapIntr T)) (s : OverlapSlice T) (a z : OverlapIntr T) : Prop where
  first : g.head? = some a
  final : g.getLast? = some z
  startIndexes : s.startIndexes = (a.startIndex1, a.startIndex2)
  startIndex : s.viewData.startIndex = a.startIndex2
  endPoint : s.viewData.endPoint = z.point2
  forward : s.viewData.inverted = false
  loop : s.isLoop = true ↔ 2 ≤ g.length ∧ z.point2.fuzzyEqEps a.point1 eps = true
  /-- a loop is a view of all of `p2` -/
  whole : s.isLoop = true → s.endIndexes = s.startIndexes ∧ s.viewData.endIndexOffset + 1 = p2.verts.length
  /-- otherwise the slice goes from the segment of `a` to the segment of `z` -/
  part : s.isLoop = false → s.endIndexes = (z.startIndex1, z.startIndex2) ∧
    s.viewData.endIndexOffset < p2.verts.length ∧
    (a.startIndex2 + s.viewData.endIndexOffset) % p2.verts.length = z.startIndex2
  /-- a loop starts with the vertex of `p2`, and ends with the bulge of the last vertex -/
  wholeEnds : s.isLoop = true → p2.verts[a.startIndex2]? = some s.viewData.updatedStart ∧
    ∀ v ∈ p2.verts.getLast?, s.viewData.updatedEndBulge = v.bulge
  /-- otherwise the slice starts at the first point of `a`: within one segment with the bulge of the part up to the last
  point of `z`, else with the bulge of the rest of the segment -/
  partStart : s.isLoop = false → ∀ u1 u2, p2.verts[a.startIndex2]? = some u1 → cycAt p2 (a.startIndex2 + 1) = some u2 →
    s.viewData.updatedStart = if a.startIndex2 = z.startIndex2 then Cavc.partStart u1 u2 a.point1 z.point2 eps
      else (segSplitAtPoint u1 u2 a.point1 eps).splitVertex
  /-- the last bulge is, within one segment, the same; else that of the part of the last segment covered by `z` -/
  partEnd : s.isLoop = false → ∀ w1 w2, p2.verts[z.startIndex2]? = some w1 → cycAt p2 (z.startIndex2 + 1) = some w2 →
    s.viewData.updatedEndBulge = if a.startIndex2 = z.startIndex2 then s.viewData.updatedStart.bulge
      else (Cavc.partStart w1 w2 z.point1 z.point2 eps).bulge
  /-- the directions are opposite if the tangents at the first point of `a` are -/
  opposing : ∀ v1 v2 u1 u2, p1.verts[a.startIndex1]? = some v1 → cycAt p1 (a.startIndex1 + 1) = some v2 →
    p2.verts[a.startIndex2]? = some u1 → cycAt p2 (a.startIndex2 + 1) = some u2 →
    s.opposingDirections = Scalar.lt ((segTangentVector v1 v2 a.point1).dot (segTangentVector u1 u2 a.point1)) 0

/-- What becomes of the slices when the last one may continue into the first one. -/
def JoinedAround (p2 : Pline T) (eps : T) (slices result : List (OverlapSlice T)) : Prop :=
  (∃ f m l, slices = f :: (m ++ [l]) ∧ l.viewData.endPoint.fuzzyEqEps f.viewData.updatedStart.pos eps = true ∧
    ∃ j, result = j :: m ∧ j.startIndexes = l.startIndexes ∧ j.endIndexes = f.endIndexes ∧
      j.isLoop = f.isLoop ∧ j.opposingDirections = f.opposingDirections ∧
      j.viewData.updatedStart = l.viewData.updatedStart ∧ j.viewData.endPoint = f.viewData.endPoint ∧
      j.viewData.updatedEndBulge = f.viewData.updatedEndBulge ∧
      ∃ v, p2.verts[0]? = some v ∧
      j.viewData.endIndexOffset = f.viewData.endIndexOffset + l.viewData.endIndexOffset
        + if l.viewData.endPoint.fuzzyEqEps v.pos eps then 1 else 0) ∨
  (result = slices ∧ ∀ f m l, slices = f :: (m ++ [l]) →
    l.viewData.endPoint.fuzzyEqEps f.viewData.updatedStart.pos eps = false)

/-- The overlaps do not lead back to a point of `p2` passed before, except around all of `p2`. -/
def NoEarlyReturn (p2 : Pline T) (eps : T) (l : List (OverlapIntr T)) : Prop :=
  ∀ a ∈ l, ∀ z ∈ l, a ≠ z → a.startIndex2 ≤ z.startIndex2 → z.point2.fuzzyEqEps a.point1 eps = true →
    a.startIndex2 = 0 ∧ z.startIndex2 + 1 = p2.verts.length

/-- The view of `p2` that a boolean operation makes of an overlap slice is within `p2`. -/
def OverlapSlice.InRange (s : OverlapSlice T) (p1 p2 : Pline T) : Prop :=
  s.startIndexes.1 < p1.verts.length ∧ s.startIndexes.2 < p2.verts.length ∧
  s.endIndexes.1 < p1.verts.length ∧ s.endIndexes.2 < p2.verts.length ∧
  s.viewData.endIndexOffset ≤ p2.verts.length

end Cavc
