import Verif.Spec.SubPath
import Verif.Spec.Boolean

/-! # Specification: two polylines that cross each other cleanly -/

namespace Cavc

/-- The vertex at a cyclic position -/
noncomputable def vtx (p : Pline ℝ) (i : Nat) : Vertex ℝ := (cycAt p i).getD ⟨0, 0, 0⟩

/-- A closed polyline all of whose segments are lines or arcs of at most half a circle with ends apart. -/
structure FullLoop (p : Pline ℝ) (eps : ℝ) : Prop where
  closed : p.closed = true
  two : 2 ≤ p.verts.length
  full : ∀ i, FullSeg (vtx p i) (vtx p (i + 1)) eps

/-- A cut strictly inside a segment, clear of its ends. -/
structure InnerCut (v w : Vertex ℝ) (eps t : ℝ) : Prop where
  pos : 0 < t
  lt : t < 1
  start : (segCurve v w t).fuzzyEqEps v.pos eps = false
  stop : (segCurve v w t).fuzzyEqEps w.pos eps = false
  before : LongPart v 0 t
  after : LongPart v t 1

/-- A cut: segment and fraction. -/
abbrev Cut := Nat × ℝ

/-- The cut is clear of the ends of its segment. -/
def CutOk (p : Pline ℝ) (eps : ℝ) (c : Cut) : Prop := InnerCut (vtx p c.1) (vtx p (c.1 + 1)) eps c.2

/-- Two points differ by more than `eps` in one of the coordinates. -/
def FarApart (eps : ℝ) (a b : V2 ℝ) : Prop := eps < |a.x - b.x| ∨ eps < |a.y - b.y|

/-- The cuts of a polyline: inside segments, clear of their ends and of each other. -/
structure GoodCuts (p : Pline ℝ) (eps : ℝ) (E : List Cut) : Prop where
  nodup : E.Nodup
  range : ∀ c ∈ E, c.1 < p.verts.length
  ok : ∀ c ∈ E, CutOk p eps c
  apart : ∀ c ∈ E, ∀ c' ∈ E, c ≠ c' → FarApart eps (curveAt p c.1 c.2) (curveAt p c'.1 c'.2)
  long : ∀ c ∈ E, ∀ c' ∈ E, c.1 = c'.1 → c.2 < c'.2 → LongPart (vtx p c.1) c.2 c'.2

/-- Every common point of two polylines is inside a segment of each of them, clear of the ends of the segments and
of the other common points; each polyline passes it once.  `E` lists the common points, with segment and fraction
on the first and on the second polyline. -/
structure CleanCrossing (p1 p2 : Pline ℝ) (eps : ℝ) (E : List (Cut × Cut)) : Prop where
  on : ∀ c ∈ E, curveAt p1 c.1.1 c.1.2 = curveAt p2 c.2.1 c.2.2
  all : ∀ i t j u, i < p1.verts.length → 0 ≤ t → t ≤ 1 → j < p2.verts.length → 0 ≤ u → u ≤ 1 →
    curveAt p1 i t = curveAt p2 j u → ((i, t), (j, u)) ∈ E
  first : GoodCuts p1 eps (E.map Prod.fst)
  second : GoodCuts p2 eps (E.map Prod.snd)

/-- The intersects found are the common points `E`, in this order. -/
structure FindsCrossing (p1 : Pline ℝ) (E : List (Cut × Cut)) (found : IntrCollection ℝ) : Prop where
  overlapping : found.overlapping = []
  basic : (found.basic.map fun i => (i.startIndex1, i.startIndex2, i.point)) = E.map fun c => (c.1.1, c.2.1, curveAt p1 c.1.1 c.1.2)

/-- The points reported for a pair of segments are exactly its common points, each once, and no overlap is reported. -/
structure FindsPair (s1 s2 : Vertex ℝ × Vertex ℝ) (eps : ℝ) : Prop where
  overlap : (plineSegIntr s1.1 s1.2 s2.1 s2.2 eps).overlap = none
  nodup : (plineSegIntr s1.1 s1.2 s2.1 s2.2 eps).isolated.Nodup
  points : ∀ q, q ∈ (plineSegIntr s1.1 s1.2 s2.1 s2.2 eps).isolated ↔ OnSeg s1.1 s1.2 q ∧ OnSeg s2.1 s2.2 q

/-- That holds of all pairs of segments of two polylines whose boxes meet. -/
def FindsPairs (p1 p2 : Pline ℝ) (eps : ℝ) : Prop := ∀ s1 ∈ p1.segs, ∀ s2 ∈ p2.segs, BoxesMeet s1 s2 eps → FindsPair s1 s2 eps

/-- The winding number around points inside a polyline of this orientation. -/
def turnOf : Pline.Orientation → ℤ
  | .open => 0
  | .clockwise => -1
  | .counterClockwise => 1

/-- A polyline that winds at most once around every point, and in the direction of its orientation. -/
def WindsOnce (p : Pline ℝ) : Prop := ∀ pt, ¬ OnPline p pt → p.windingNumber pt = 0 ∨ p.windingNumber pt = turnOf p.orientation

end Cavc
