import Verif.Spec.Crossing

/-! # Specification: a polyline that crosses itself cleanly -/

namespace Cavc

/-- All cuts of a list of pairs. -/
def bothCuts (E : List (Cut × Cut)) : List Cut := E.map Prod.fst ++ E.map Prod.snd

/-- A closed polyline passes a point twice only at the vertex between neighbouring segments and at the crossings `E`, which
list both passes with segment and fraction.  The crossings are inside segments, clear of the ends of the segments, and the
points of different crossings are further than `gap` apart. -/
structure SelfCrossing (p : Pline ℝ) (eps gap : ℝ) (E : List (Cut × Cut)) : Prop where
  three : 3 ≤ p.verts.length
  on : ∀ c ∈ E, curveAt p c.1.1 c.1.2 = curveAt p c.2.1 c.2.2
  order : ∀ c ∈ E, c.1.1 < c.2.1
  all : ∀ i t j u, i < j → j < p.verts.length → 0 ≤ t → t ≤ 1 → 0 ≤ u → u ≤ 1 → curveAt p i t = curveAt p j u →
    (j = i + 1 ∧ t = 1 ∧ u = 0) ∨ (i = 0 ∧ j + 1 = p.verts.length ∧ t = 0 ∧ u = 1) ∨ ((i, t), (j, u)) ∈ E
  nodup : (bothCuts E).Nodup
  range : ∀ c ∈ bothCuts E, c.1 < p.verts.length
  ok : ∀ c ∈ bothCuts E, CutOk p eps c
  apart : ∀ c ∈ E, ∀ c' ∈ E, c ≠ c' → FarApart gap (curveAt p c.1.1 c.1.2) (curveAt p c'.1.1 c'.1.2)
  long : ∀ c ∈ bothCuts E, ∀ c' ∈ bothCuts E, c.1 = c'.1 → c.2 < c'.2 → LongPart (vtx p c.1) c.2 c'.2

/-- The points reported for a segment and the next one, apart from those at the common vertex, are exactly their common points
apart from those at the common vertex, each once; no overlap is reported. -/
structure FindsCorner (s1 s2 : Vertex ℝ × Vertex ℝ) (eps : ℝ) : Prop where
  overlap : (plineSegIntr s1.1 s1.2 s2.1 s2.2 eps).overlap = none
  nodup : ((plineSegIntr s1.1 s1.2 s2.1 s2.2 eps).isolated.filter fun q => !q.fuzzyEqEps s1.2.pos eps).Nodup
  points : ∀ q, q.fuzzyEqEps s1.2.pos eps = false → (q ∈ (plineSegIntr s1.1 s1.2 s2.1 s2.2 eps).isolated ↔ OnSeg s1.1 s1.2 q ∧ OnSeg s2.1 s2.2 q)

/-- The common points of all pairs of segments of a closed polyline are reported exactly. -/
structure FindsSelf (p : Pline ℝ) (eps : ℝ) : Prop where
  corner : ∀ i < p.verts.length, FindsCorner (vtx p i, vtx p (i + 1)) (vtx p (i + 1), vtx p (i + 2)) eps
  pair : ∀ i k, i < p.verts.length → k < p.verts.length → i ≠ k → (i + 1) % p.verts.length ≠ k → (k + 1) % p.verts.length ≠ i →
    BoxesMeet (vtx p k, vtx p (k + 1)) (vtx p i, vtx p (i + 1)) eps → FindsPair (vtx p i, vtx p (i + 1)) (vtx p k, vtx p (k + 1)) eps

end Cavc
