import Verif.Spec.OffsetAny

/-! # Specification: offsets of closed polylines that may cross themselves -/

namespace Cavc

/-- The cuts `C` of a closed polyline `R`: the points that `R` passes twice, in both passes, and the points that it has in common
with `D`.  All cuts are inside segments, clear of the ends of the segments and of the vertexes of `D`; their points are equal or
further than `gap` apart.  There is not exactly one cut. -/
structure SelfCuts (R D : Pline ℝ) (eps gap : ℝ) (C : List Cut) : Prop where
  three : 3 ≤ R.verts.length
  on : ∀ c ∈ C, (∃ c' ∈ C, c'.1 ≠ c.1 ∧ curveAt R c'.1 c'.2 = curveAt R c.1 c.2) ∨ OnPline D (curveAt R c.1 c.2)
  self : ∀ i t j u, i < j → j < R.verts.length → 0 ≤ t → t ≤ 1 → 0 ≤ u → u ≤ 1 → curveAt R i t = curveAt R j u →
    (j = i + 1 ∧ t = 1 ∧ u = 0) ∨ (i = 0 ∧ j + 1 = R.verts.length ∧ t = 0 ∧ u = 1) ∨ ((i, t) ∈ C ∧ (j, u) ∈ C)
  other : ∀ i t, i < R.verts.length → 0 ≤ t → t ≤ 1 → OnPline D (curveAt R i t) → (i, t) ∈ C
  range : ∀ c ∈ C, c.1 < R.verts.length
  ok : ∀ c ∈ C, CutOk R eps c
  clear : ∀ c ∈ C, ∀ v ∈ D.verts, (curveAt R c.1 c.2).fuzzyEqEps v.pos eps = false
  apart : ∀ c ∈ C, ∀ c' ∈ C, curveAt R c.1 c.2 = curveAt R c'.1 c'.2 ∨ FarApart gap (curveAt R c.1 c.2) (curveAt R c'.1 c'.2)
  long : ∀ c ∈ C, ∀ c' ∈ C, c.1 = c'.1 → c.2 < c'.2 → LongPart (vtx R c.1) c.2 c'.2
  several : ∀ c ∈ C, ∃ c' ∈ C, c' ≠ c

/-- A part of segment `i` of a closed polyline, with cuts or vertexes at its ends and no cut inside. -/
structure SelfStretch (R : Pline ℝ) (C : List Cut) (i : Nat) (lo hi : ℝ) : Prop where
  range : i < R.verts.length
  zero : 0 ≤ lo
  lt : lo < hi
  one : hi ≤ 1
  start : lo = 0 ∨ (i, lo) ∈ C
  stop : hi = 1 ∨ (i, hi) ∈ C
  inside : ∀ t, lo < t → t < hi → (i, t) ∉ C

/-- The tests of the code on parts of the raw offset `R` decide correctly: in the middle of a part that begins with a cut, or at
the first vertex if there are no cuts, the distance is kept or clearly not kept; for a part that keeps the distance no intersect
with a segment of the input is reported; and the ends of arcs are not confused. -/
structure SelfTests (p R : Pline ℝ) (d eps tol : ℝ) (C : List Cut) : Prop where
  whole : C = [] → Decided p |d| tol (curveAt R 0 0)
  middle : ∀ i lo hi, SelfStretch R C i lo hi → (i, lo) ∈ C → Decided p |d| tol (curveAt R i ((lo + hi) / 2))
  clear : ∀ i lo hi x y, SelfStretch R C i lo hi → (∀ t, lo ≤ t → t ≤ hi → Keeps p |d| (curveAt R i t)) →
    FullSeg x y eps → (∀ s, segCurve x y s = curveAt R i (lo + (hi - lo) * s)) → SegClear p eps x y
  readable : ∀ i lo hi, SelfStretch R C i lo hi →
    Readable p eps (curveAt R i lo) ∧ Readable p eps (curveAt R i ((lo + hi) / 2)) ∧ Readable p eps (curveAt R i hi)

/-- Along the closed polyline `R`, the distance `r` from `p` is given up and regained only at the cuts `C`; and if it is kept at
the point of a cut, then it is kept for a while along at least one of the ways that leave this point. -/
structure SelfChanges (p R : Pline ℝ) (r : ℝ) (C : List Cut) : Prop where
  steady : ∀ i t, i < R.verts.length → 0 ≤ t → t ≤ 1 → (i, t) ∉ C → Keeps p r (curveAt R i t) →
    ∃ δ > 0, ∀ t', 0 ≤ t' → t' ≤ 1 → |t' - t| < δ → Keeps p r (curveAt R i t')
  leave : ∀ c ∈ C, Keeps p r (curveAt R c.1 c.2) → ∃ c' ∈ C, curveAt R c'.1 c'.2 = curveAt R c.1 c.2 ∧
    ∃ σ : ℝ, (σ = 1 ∨ σ = -1) ∧ ∃ δ > 0, ∀ s, 0 < s → s < δ → Keeps p r (curveAt R c'.1 (c'.2 + σ * s))

end Cavc
