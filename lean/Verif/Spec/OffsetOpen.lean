import Verif.Spec.OffsetAny

/-! # Specification: offsets of open polylines of lines and arcs -/

namespace Cavc

/-- An open polyline with at least one segment, all of whose segments are lines or arcs of at most half a circle with ends apart. -/
structure FullPath (p : Pline ℝ) (eps : ℝ) : Prop where
  «open» : p.closed = false
  two : 2 ≤ p.verts.length
  full : ∀ i, i + 1 < p.verts.length → FullSeg (vtx p i) (vtx p (i + 1)) eps

/-- `v` is the first or the last vertex of `p`. -/
def IsEnd (p : Pline ℝ) (v : Vertex ℝ) : Prop := p.verts.head? = some v ∨ p.verts.getLast? = some v

/-- The cuts `C` of an open polyline `R`: the points that `R` passes twice, in both passes; the points that it has in common
with `D`; and those at the distance `r` from the first or the last vertex of `p`, except for the first and the last point of `R`.
The last point of `R` has this distance from the last vertex of `p`.  All cuts are inside segments, clear of the ends of the
segments and of the vertexes of `D`; their points, and the ends of `R`, are equal or further than `gap` apart. -/
structure OpenCuts (p R D : Pline ℝ) (r eps gap : ℝ) (C : List Cut) : Prop where
  on : ∀ c ∈ C, (∃ c' ∈ C, c'.1 ≠ c.1 ∧ curveAt R c'.1 c'.2 = curveAt R c.1 c.2) ∨ OnPline D (curveAt R c.1 c.2) ∨
    ∃ v, IsEnd p v ∧ edist (curveAt R c.1 c.2) v.pos = r
  self : ∀ i t j u, i < j → j + 1 < R.verts.length → 0 ≤ t → t ≤ 1 → 0 ≤ u → u ≤ 1 → curveAt R i t = curveAt R j u →
    (j = i + 1 ∧ t = 1 ∧ u = 0) ∨ ((i, t) ∈ C ∧ (j, u) ∈ C)
  other : ∀ i t, i + 1 < R.verts.length → 0 ≤ t → t ≤ 1 → OnPline D (curveAt R i t) → (i, t) ∈ C
  circles : ∀ v, IsEnd p v → ∀ i t, i + 1 < R.verts.length → 0 ≤ t → t ≤ 1 → edist (curveAt R i t) v.pos = r →
    (i, t) ∈ C ∨ (i = 0 ∧ t = 0) ∨ (i + 2 = R.verts.length ∧ t = 1)
  last : ∃ v, p.verts.getLast? = some v ∧ edist (curveAt R (R.verts.length - 2) 1) v.pos = r
  range : ∀ c ∈ C, c.1 + 1 < R.verts.length
  ok : ∀ c ∈ C, CutOk R eps c
  clear : ∀ c ∈ C, ∀ v ∈ D.verts, (curveAt R c.1 c.2).fuzzyEqEps v.pos eps = false
  apart : ∀ c ∈ C, ∀ c' ∈ C, curveAt R c.1 c.2 = curveAt R c'.1 c'.2 ∨ FarApart gap (curveAt R c.1 c.2) (curveAt R c'.1 c'.2)
  fromStart : ∀ c ∈ C, FarApart gap (curveAt R c.1 c.2) (curveAt R 0 0)
  fromLast : ∀ c ∈ C, FarApart gap (curveAt R c.1 c.2) (curveAt R (R.verts.length - 2) 1)
  ends : FarApart gap (curveAt R (R.verts.length - 2) 1) (curveAt R 0 0)
  long : ∀ c ∈ C, ∀ c' ∈ C, c.1 = c'.1 → c.2 < c'.2 → LongPart (vtx R c.1) c.2 c'.2

/-- The common points of all pairs of segments of an open polyline are reported exactly. -/
structure FindsPath (p : Pline ℝ) (eps : ℝ) : Prop where
  corner : ∀ i, i + 2 < p.verts.length → FindsCorner (vtx p i, vtx p (i + 1)) (vtx p (i + 1), vtx p (i + 2)) eps
  pair : ∀ i k, i + 1 < p.verts.length → k + 1 < p.verts.length → i ≠ k → i + 1 ≠ k → k + 1 ≠ i →
    BoxesMeet (vtx p k, vtx p (k + 1)) (vtx p i, vtx p (i + 1)) eps → FindsPair (vtx p i, vtx p (i + 1)) (vtx p k, vtx p (k + 1)) eps

/-- The points reported for a segment and a circle are common points other than the start of the segment, and all common points
that are clear of the start of the segment are reported. -/
structure FindsCircle (s : Vertex ℝ × Vertex ℝ) (center : V2 ℝ) (r eps : ℝ) : Prop where
  sound : ∀ q, CircleCut s center r eps q → OnSeg s.1 s.2 q ∧ edist q center = r ∧ q ≠ s.1.pos
  complete : ∀ q, OnSeg s.1 s.2 q → edist q center = r → q.fuzzyEqEps s.1.pos eps = false → CircleCut s center r eps q

/-- A part of segment `i` of an open polyline, with cuts or vertexes at its ends and no cut inside. -/
structure OpenStretch (R : Pline ℝ) (C : List Cut) (i : Nat) (lo hi : ℝ) : Prop where
  range : i + 1 < R.verts.length
  zero : 0 ≤ lo
  lt : lo < hi
  one : hi ≤ 1
  start : lo = 0 ∨ (i, lo) ∈ C
  stop : hi = 1 ∨ (i, hi) ∈ C
  inside : ∀ t, lo < t → t < hi → (i, t) ∉ C

/-- The tests of the code on parts of the raw offset `R` decide correctly: in the middle of a part that begins with a cut or
with the start of `R`, the distance is kept or clearly not kept; for a part that keeps the distance no intersect with a segment
of the input is reported; and the ends of arcs are not confused. -/
structure OpenTests (p R : Pline ℝ) (d eps tol : ℝ) (C : List Cut) : Prop where
  middle : ∀ i lo hi, OpenStretch R C i lo hi → (i, lo) ∈ C ∨ (i = 0 ∧ lo = 0) → Decided p |d| tol (curveAt R i ((lo + hi) / 2))
  clear : ∀ i lo hi x y, OpenStretch R C i lo hi → (∀ t, lo ≤ t → t ≤ hi → Keeps p |d| (curveAt R i t)) →
    FullSeg x y eps → (∀ s, segCurve x y s = curveAt R i (lo + (hi - lo) * s)) → SegClear p eps x y
  readable : ∀ i lo hi, OpenStretch R C i lo hi →
    Readable p eps (curveAt R i lo) ∧ Readable p eps (curveAt R i ((lo + hi) / 2)) ∧ Readable p eps (curveAt R i hi)

/-- Along the open polyline `R`, the distance `r` from `p` is given up and regained only at the cuts `C`; and if it is kept at the
point of a cut, then it is kept for a while along at least one of the ways that leave this point. -/
structure ChangesAtCuts (p R : Pline ℝ) (r : ℝ) (C : List Cut) : Prop where
  steady : ∀ i t, i + 1 < R.verts.length → 0 ≤ t → t ≤ 1 → (i, t) ∉ C → Keeps p r (curveAt R i t) →
    ∃ δ > 0, ∀ t', 0 ≤ t' → t' ≤ 1 → |t' - t| < δ → Keeps p r (curveAt R i t')
  leave : ∀ c ∈ C, Keeps p r (curveAt R c.1 c.2) → ∃ c' ∈ C, curveAt R c'.1 c'.2 = curveAt R c.1 c.2 ∧
    ∃ σ : ℝ, (σ = 1 ∨ σ = -1) ∧ ∃ δ > 0, ∀ s, 0 < s → s < δ → Keeps p r (curveAt R c'.1 (c'.2 + σ * s))

end Cavc
