import Verif.Spec.Overlap
import Verif.Spec.Path
import Verif.Model.Boolean

/-! # Specification: when a boolean operation takes its inputs for the same curve -/

namespace Cavc
variable {T : Type} [Scalar T]

/-- A run of at least two overlaps that ends where it starts. -/
def ClosesUp (eps : T) (g : List (OverlapIntr T)) : Prop :=
  ∃ a m z, g = a :: (m ++ [z]) ∧ z.point2.fuzzyEqEps a.point1 eps = true

/-- There is one run and it closes up, or the first of two closes up and the second leads to the vertex of the second
polyline at the start of the first. -/
def OneLoop (p2 : Pline T) (eps : T) (gs : List (List (OverlapIntr T))) : Prop :=
  (∃ g, gs = [g] ∧ ClosesUp eps g) ∨
  ∃ g h a z v, gs = [g, h] ∧ ClosesUp eps g ∧ g.head? = some a ∧ h.getLast? = some z ∧
    p2.verts[a.startIndex2]? = some v ∧ z.point2.fuzzyEqEps v.pos eps = true

/-- What the set operations give for a region and itself. -/
def SameAnswer (p2 : Pline T) (op : BooleanOp) (r : BooleanResult T) : Prop :=
  r.info = .overlapping ∧ r.negPlines = [] ∧
    r.posPlines.map (·.pline) = match op with
      | .or => [p2]
      | .and => [p2]
      | .not => []
      | .xor => []

/-- The same line or arc, in the same direction or the opposite one. -/
def SamePiece (a b : Piece T) : Prop := a = b ∨ a = b.flip

/-- The segments of the polylines are the same but for their order and directions. -/
def SameCurve (p1 p2 : Pline T) : Prop := ∃ l : List (Piece T), l.Perm p1.path ∧ List.Forall₂ SamePiece l p2.path

/-- No segment is taken for overlapping with a segment of the other polyline that is not the same, and no two segments of
the first polyline are the same. -/
structure NoPartialOverlap (p1 p2 : Pline T) (eps : T) : Prop where
  other : ∀ s ∈ p1.segs, ∀ t ∈ p2.segs, ¬ SamePiece (pieceOf s) (pieceOf t) → (plineSegIntr s.1 s.2 t.1 t.2 eps).overlap = none
  once : p1.path.Pairwise fun a b => ¬ SamePiece a b

end Cavc
