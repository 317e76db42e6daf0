import Verif.Spec.Stitch
import Verif.Spec.Overlap

/-! # Specification of boolean operations -/

namespace Cavc
variable {T : Type} [Scalar T]

/-- What a boolean operation accepts: closed polylines with at least two vertexes. -/
def Pline.BooleanInput (p : Pline T) : Prop := 2 ≤ p.verts.length ∧ p.closed = true

/-- The operation on sets, pointwise. -/
def BooleanOp.holds : BooleanOp → Prop → Prop → Prop
  | .or, a, b => a ∨ b
  | .and, a, b => a ∧ b
  | .not, a, b => a ∧ ¬b
  | .xor, a, b => (a ∧ ¬b) ∨ (b ∧ ¬a)

/-- Which pieces a pass of an operation keeps: those of the first polyline that are inside the second
(`true`) or outside (`false`), and the same for the second polyline. -/
def BooleanOp.passes : BooleanOp → List (Bool × Bool)
  | .or => [(false, false)]
  | .and => [(true, true)]
  | .not => [(false, true)]
  | .xor => [(false, true), (true, false)]

/-- A slice kept by a pass: a piece of the first or of the second polyline that passes the test and
starts where the polyline does not go along an overlap. The pieces of the first are read backwards
if the pass keeps different sides of the two polylines and these have the same direction, or it
keeps the same sides and they have opposite directions. -/
inductive Kept (p1 p2 : Pline T) (b : BoolProc T) (eps : T) (pass : Bool × Bool) : BoolSlice T → Prop
  | first {s : BoolSlice T} {pts starts : List (Nat × V2 T)} (hp : ∀ a ∈ pts, a.2 ∈ b.cutPoints)
      (h : IsPiece p1 eps pts (fun pt => (p2.windingNumber pt != 0) == pass.1) s) (hs : s.sourceIsPline1 = true) (ho : s.overlapping = false)
      (hl : ∀ a ∈ starts, a ∈ pts ∧ a.2 ∈ b.leavePoints false) (hst : StartsAt p1 eps starts s) :
      Kept p1 p2 b eps pass { s with viewData := { s.viewData with inverted := ((pass.1 != pass.2) != b.opposingDirections) } }
  | second {s : BoolSlice T} {pts starts : List (Nat × V2 T)} (hp : ∀ a ∈ pts, a.2 ∈ b.cutPoints)
      (h : IsPiece p2 eps pts (fun pt => (p1.windingNumber pt != 0) == pass.2) s) (hs : s.sourceIsPline1 = false) (ho : s.overlapping = false)
      (hl : ∀ a ∈ starts, a ∈ pts ∧ a.2 ∈ b.leavePoints true) (hst : StartsAt p2 eps starts s) :
      Kept p1 p2 b eps pass s

/-- The polylines `rs` are assembled from slices, none of which is used twice: kept pieces, and each
overlap once in the direction of the first polyline and once in the direction of the second. -/
def AssembledFrom (p1 p2 : Pline T) (b : BoolProc T) (eps : T) (pass : Bool × Bool) (rs : List (BooleanResultPline T)) : Prop :=
  ∃ pieces slices useds, (∀ s ∈ pieces, Kept p1 p2 b eps pass s) ∧
    slices = pieces ++ b.overlappingSlices.map (fun o => BoolSlice.fromOverlapping o o.opposingDirections) ++
      b.overlappingSlices.map (fun o => BoolSlice.fromOverlapping o false) ∧
    List.Forall₂ (Stitched slices p1 p2 eps) useds rs ∧ useds.flatten.Nodup

end Cavc
