import Verif.Spec.Crossing
import Verif.Props.SegIntr

/-! # Specification: segments that cross clearly or are clear of each other -/

namespace Cavc

/-- Two straight segments that cross at an angle the area test resolves, or are resolved and more than `8 * eps` apart. -/
def ClearLines (s1 s2 : Vertex ℝ × Vertex ℝ) (eps : ℝ) : Prop :=
  ((∃ q, OnSeg s1.1 s1.2 q ∧ OnSeg s2.1 s2.2 q) ∧ eps ≤ |dirCross s1.1.pos s1.2.pos s2.1.pos s2.2.pos|) ∨
  (LinesResolved s1.1.pos s1.2.pos s2.1.pos s2.2.pos eps ∧ ∀ a b, OnSeg s1.1 s1.2 a → OnSeg s2.1 s2.2 b → 8 * eps < edist a b)

/-- Center of the circle of an arc segment -/
noncomputable def segCenter (a : Vertex ℝ × Vertex ℝ) : V2 ℝ := arcCenter a.1.pos a.2.pos a.1.bulge

/-- Radius of the circle of an arc segment -/
noncomputable def segRadius (a : Vertex ℝ × Vertex ℝ) : ℝ := arcRadius a.1.pos a.2.pos a.1.bulge

/-- A point that is not in the tolerance band of the sweep test of an arc and not an end of the arc. -/
def ClearOfEnds (a : Vertex ℝ × Vertex ℝ) (pt : V2 ℝ) (eps : ℝ) : Prop := SweepClear a.1 a.2 pt eps ∧ pt ≠ a.1.pos ∧ pt ≠ a.2.pos

/-- A point further than `eps` from every point of an arc, and not in the tolerance band of its sweep test. -/
def ClearOfArc (a : Vertex ℝ × Vertex ℝ) (pt : V2 ℝ) (eps : ℝ) : Prop := SweepClear a.1 a.2 pt eps ∧ ∀ q, OnSeg a.1 a.2 q → eps < edist pt q

/-- A straight segment `w` and an arc `a`: the line passes the circle at a distance or well inside; the common points
of line and circle are out of the reach of the straight segment, or on it and clear of the ends of the arc; the ends of the
straight segment are clear of the arc. -/
structure ClearLineArc (w a : Vertex ℝ × Vertex ℝ) (eps : ℝ) : Prop where
  line : LineOk w.1.pos w.2.pos eps
  ends : ClearOfArc a w.1.pos eps ∧ ClearOfArc a w.2.pos eps
  depth : (∀ t, segRadius a + 2 * eps < edist (linePoint w.1.pos w.2.pos t) (segCenter a)) ∨
    ∃ t, edist (linePoint w.1.pos w.2.pos t) (segCenter a) + eps ≤ segRadius a
  hits : ∀ t, OnCircle (segCenter a) (segRadius a) (linePoint w.1.pos w.2.pos t) →
    InReach w.1.pos w.2.pos t eps → (0 ≤ t ∧ t ≤ 1) ∧ ClearOfEnds a (linePoint w.1.pos w.2.pos t) eps

/-- Two arcs: the circles are not close to each other as a whole, they miss each other by `eps` or have two common
points that are apart; the common points are clear of the ends of the arcs; the ends of either arc are clear of the
other. -/
structure ClearArcs (v u : Vertex ℝ × Vertex ℝ) (eps : ℝ) : Prop where
  centers : eps ≤ edist (segCenter v) (segCenter u)
  ends : ClearOfArc v u.1.pos eps ∧ ClearOfArc v u.2.pos eps ∧ ClearOfArc u v.1.pos eps ∧ ClearOfArc u v.2.pos eps
  depth : segRadius v + segRadius u + eps ≤ edist (segCenter v) (segCenter u) ∨ edist (segCenter v) (segCenter u) + eps ≤ |segRadius v - segRadius u| ∨
    ∃ p q, Apart p q (2 * eps) ∧ (OnCircle (segCenter v) (segRadius v) p ∧ OnCircle (segCenter u) (segRadius u) p) ∧
      OnCircle (segCenter v) (segRadius v) q ∧ OnCircle (segCenter u) (segRadius u) q
  hits : ∀ q, OnCircle (segCenter v) (segRadius v) q → OnCircle (segCenter u) (segRadius u) q → ClearOfEnds v q eps ∧ ClearOfEnds u q eps

/-- Two segments, lines or arcs of at most half a circle, that cross clearly or are clear of each other. -/
inductive ClearPair (s1 s2 : Vertex ℝ × Vertex ℝ) (eps : ℝ) : Prop
  | lines (h1 : IsLine s1.1) (h2 : IsLine s2.1) (h : ClearLines s1 s2 eps)
  | lineArc (h1 : IsLine s1.1) (h2 : ProperArc s2.1 s2.2) (h : ClearLineArc s1 s2 eps)
  | arcLine (h1 : ProperArc s1.1 s1.2) (h2 : IsLine s2.1) (h : ClearLineArc s2 s1 eps)
  | arcs (h1 : ProperArc s1.1 s1.2) (h2 : ProperArc s2.1 s2.2) (h : ClearArcs s1 s2 eps)

end Cavc
