import Verif.Spec.Simplify
import Verif.Spec.ClearLines

/-! # Specification of vertex removal on paths of lines and arcs -/

namespace Cavc

/-- The arcs from `u` to `v` and from `v` to `w` are parts of one circle in the same direction, and the arc with bulge
`b`, of at most half that circle, turns as far as both together. -/
structure OneArc (u v w : Vertex ℝ) (b : ℝ) : Prop where
  arc1 : ¬ IsLine u
  arc2 : ¬ IsLine v
  center : segCenter (u, v) = segCenter (v, w)
  radius : segRadius (u, v) = segRadius (v, w)
  turn : 0 < u.bulge * v.bulge
  sweep : 4 * Real.arctan b = 4 * Real.arctan u.bulge + 4 * Real.arctan v.bulge
  half : |b| ≤ 1

/-- `l'` arises from the vertex list `l` by deleting, one after the other, vertexes that repeat the position of the next
one, vertexes on a line between two neighbours, and vertexes between two arcs that become one arc.  The positions of the
first and the last vertex stay. -/
inductive Shortened : List (Vertex ℝ) → List (Vertex ℝ) → Prop
  | refl (l) : Shortened l l
  | again (l a b x y z) : Shortened l (a ++ x :: y :: z :: b) → y.pos = z.pos → Shortened l (a ++ x :: z :: b)
  | line (l a b x y z) : Shortened l (a ++ x :: y :: z :: b) → IsLine x → IsLine y → OnLineSeg x.pos z.pos y.pos →
      Shortened l (a ++ x :: z :: b)
  | arc (l a b x y z) (c : ℝ) : Shortened l (a ++ x :: y :: z :: b) → OneArc x y z c →
      Shortened l (a ++ x.withBulge c :: z :: b)

/-- The middle vertex of three is needed. -/
structure Needed (x y z : Vertex ℝ) : Prop where
  moves : y.pos ≠ z.pos
  corner : IsLine x → IsLine y → ¬ OnLineSeg x.pos z.pos y.pos
  joint : ∀ b, ¬ OneArc x y z b

/-- Every interior vertex of the list is needed. -/
def AllNeeded (l : List (Vertex ℝ)) : Prop := ∀ a b x y z, l = a ++ x :: y :: z :: b → Needed x y z

/-- Sum of the absolute sweep angles of segments. -/
noncomputable def sweepSum (l : List (Vertex ℝ × Vertex ℝ)) : ℝ := (l.map fun s => |4 * Real.arctan s.1.bulge|).sum

/-- The epsilon is below the resolution of the polyline: besides near positions and nearly straight corners being equal
and straight (`Resolves`), arcs of nearly the same circle are on the same circle, and arcs of one circle that turn by
hardly more than half a circle together turn by at most that.  All arcs are at most half circles. -/
structure ResolvesArcs (eps : ℝ) (p : Pline ℝ) : Prop where
  points : Resolves eps p.verts
  half : ∀ v ∈ p.verts, |v.bulge| ≤ 1
  circle : ∀ s ∈ p.segs, ∀ s' ∈ p.segs, ¬ IsLine s.1 → ¬ IsLine s'.1 → s.1.pos ≠ s.2.pos → s'.1.pos ≠ s'.2.pos →
    |segRadius s - segRadius s'| < eps → |(segCenter s).x - (segCenter s').x| < eps → |(segCenter s).y - (segCenter s').y| < eps →
      segRadius s = segRadius s' ∧ segCenter s = segCenter s'
  sweep : ∀ l, List.Sublist l p.segs → ∀ r, (∀ s ∈ l, ¬ IsLine s.1 ∧ segRadius s = r) →
    r * sweepSum l < r * Real.pi + eps → sweepSum l ≤ Real.pi

end Cavc
