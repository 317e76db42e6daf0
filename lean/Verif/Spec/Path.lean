import Verif.Model.Pline

/-! # Specification of paths

A directed path piece is given by its start position, its end position and its bulge.  The bulge of
the end vertex belongs to the next piece. -/

namespace Cavc
variable {T : Type} [Scalar T]

/-- A directed segment: start, end and bulge. -/
structure Piece (T : Type) where
  start : V2 T
  stop : V2 T
  bulge : T

/-- The same segment travelled backwards. -/
def Piece.flip (s : Piece T) : Piece T := ⟨s.stop, s.start, -s.bulge⟩

/-- The directed segment between two consecutive vertexes. -/
def pieceOf (s : Vertex T × Vertex T) : Piece T := ⟨⟨s.1.x, s.1.y⟩, ⟨s.2.x, s.2.y⟩, s.1.bulge⟩

/-- The path traced by a polyline: the directed segments it iterates over. -/
def Pline.path (p : Pline T) : List (Piece T) := p.segs.map pieceOf

/-- The path travelled backwards. -/
def reversePath (l : List (Piece T)) : List (Piece T) := (l.map Piece.flip).reverse

end Cavc
