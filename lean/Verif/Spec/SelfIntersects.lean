import Verif.Spec.Intersects

/-! # Specification vocabulary for self intersects of a polyline -/

namespace Cavc
variable {T : Type} [Scalar T]

/-- Reports handed to a visitor one after the other until it asks to stop: its final state and the
value it stopped with, if it did. -/
def deliver {S C : Type} [ControlFlow C] (vis : Visitor T S C) : S → List (Intr T) → S × Option C
  | s, [] => (s, none)
  | s, e :: es => if ControlFlow.shouldBreak (vis s e).2 then ((vis s e).1, some (vis s e).2) else deliver vis (vis s e).1 es

/-- A run of a visiting function that ended in the visitor state `r.1` with the value `r.2` handed
exactly the reports `evs` to the visitor, in order, up to the first one it stopped at. -/
def Delivered {S C : Type} [ControlFlow C] (vis : Visitor T S C) (s : S) (evs : List (Intr T)) (r : S × C) : Prop :=
  r.1 = (deliver vis s evs).1 ∧
    match (deliver vis s evs).2 with
    | some c => r.2 = c
    | none => ControlFlow.shouldBreak r.2 = false

/-- Segments `i` and `k` are two segments of the polyline that have no vertex in common. -/
def Pline.NonAdjacent (p : Pline T) (i k : Nat) : Prop :=
  i < p.segmentCount ∧ k < p.segmentCount ∧ i ≠ k ∧ p.following i ≠ k ∧ p.following k ≠ i ∧ p.following i ≠ p.following k

/-- The isolated points of a segment intersect that are not to be left out, then its overlap. -/
def PlineSegIntr.reports (r : PlineSegIntr T) (i k : Nat) (leaveOut : V2 T → Bool) (leaveOutOverlap : V2 T → Bool) : List (Intr T) :=
  ((r.isolated.filter fun pt => !leaveOut pt).map fun pt => .basic ⟨i, k, pt⟩) ++
    match r.overlap with
    | some ab => if leaveOutOverlap ab.1 then [] else [.overlapping ⟨i, k, ab.1, ab.2⟩]
    | none => []

/-- Reports for two segments without common vertex: a point at the end of both is left out (it is the
start of the two following segments). -/
def Pline.pairReports (p : Pline T) (eps : T) (ik : Nat × Nat) : List (Intr T) :=
  match p.segs[ik.1]?, p.segs[ik.2]? with
  | some s, some t =>
    let atEnds := fun pt => s.2.pos.fuzzyEqEps pt eps && t.2.pos.fuzzyEqEps pt eps
    (plineSegIntr s.1 s.2 t.1 t.2 eps).reports ik.1 ik.2 atEnds atEnds
  | _, _ => []

/-- Reports for segment `i` and the segment that follows it: the common vertex is left out; a segment
without length overlaps. -/
def Pline.cornerReports (p : Pline T) (eps : T) (i : Nat) : List (Intr T) :=
  match p.segs[i]?, p.segs[p.following i]? with
  | some s, some t =>
    if s.1.pos.fuzzyEqEps s.2.pos eps then [.overlapping ⟨i, p.following i, s.1.pos, s.2.pos⟩]
    else (plineSegIntr s.1 s.2 t.1 t.2 eps).reports i (p.following i) (fun pt => pt.fuzzyEqEps s.2.pos eps) (fun _ => false)
  | _, _ => []

instance (p : Pline T) (i : Nat) : Decidable (p.Continues i) := inferInstanceAs (Decidable (_ ∨ _))

/-- Segments that are followed by another one, in order. -/
def Pline.corners (p : Pline T) : List Nat := (List.range p.segmentCount).filter fun i => decide (p.Continues i)

/-- All reports for neighbouring segments. The two segments of a closed polyline with two vertexes
overlap when their bulges are opposite. -/
def Pline.localReports (p : Pline T) (eps : T) : List (Intr T) :=
  match p.closed, p.verts with
  | true, [a, b] => if Scalar.fuzzyEq a.bulge (-b.bulge) then [.overlapping ⟨0, 1, a.pos, b.pos⟩] else []
  | _, _ => p.corners.flatMap (p.cornerReports eps)

/-- The reports of a visit that examines the given pairs of segments without common vertex. -/
def Pline.visitReports (p : Pline T) (eps : T) (pairs : List (Nat × Nat)) : SelfIntrInclude → List (Intr T)
  | .local => p.localReports eps
  | .global => pairs.flatMap (p.pairReports eps)
  | .all => p.localReports eps ++ pairs.flatMap (p.pairReports eps)

/-- The pairs of segments examined: every two segments without common vertex whose boxes meet, each
two only once, in one of the two orders. -/
structure Pline.Examined (p : Pline T) (eps : T) (pairs : List (Nat × Nat)) : Prop where
  nodup : pairs.Nodup
  oneOrder : ∀ i k, (i, k) ∈ pairs → (k, i) ∉ pairs
  sound : ∀ i k, (i, k) ∈ pairs → p.NonAdjacent i k ∧ ∃ s t, p.segs[i]? = some s ∧ p.segs[k]? = some t ∧ BoxesMeet t s eps
  complete : ∀ i k s t, p.NonAdjacent i k → p.segs[i]? = some s → p.segs[k]? = some t → BoxesMeet t s eps →
    (i, k) ∈ pairs ∨ (k, i) ∈ pairs

/-- The segment indexes of a report. -/
def Intr.indexes : Intr T → Nat × Nat
  | .basic b => (b.startIndex1, b.startIndex2)
  | .overlapping o => (o.startIndex1, o.startIndex2)

end Cavc
