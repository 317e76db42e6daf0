import Verif.Spec.Crossing

/-! # Specification: the raw offset of a closed polyline of straight segments

Every side is moved sideways by the offset.  At a corner the moved sides are cut at their common point (a mitre), joined by an
arc around the corner (on the outer side of the turn), or, if a side is too short for the mitre, joined by a straight line. -/

namespace Cavc

/-- A closed polyline of straight segments. -/
structure StraightLoop (p : Pline ℝ) : Prop where
  closed : p.closed = true
  two : 2 ≤ p.verts.length
  line : ∀ i, IsLine (vtx p i)
  apart : ∀ i, (vtx p i).pos ≠ (vtx p (i + 1)).pos

/-- The point after the fraction `u` of the segment from `a` to `b`, moved to the left by `d`. -/
noncomputable def moved (a b : V2 ℝ) (d u : ℝ) : V2 ℝ :=
  ⟨a.x + u * (b.x - a.x) - d * ((b.y - a.y) / edist a b), a.y + u * (b.y - a.y) + d * ((b.x - a.x) / edist a b)⟩

/-- Sine of the turn at `v` on the way from `a` over `v` to `b`. -/
noncomputable def turnSin (a v b : V2 ℝ) : ℝ :=
  ((v.x - a.x) / edist a v) * ((b.y - v.y) / edist v b) - ((v.y - a.y) / edist a v) * ((b.x - v.x) / edist v b)

/-- Cosine of that turn. -/
noncomputable def turnCos (a v b : V2 ℝ) : ℝ :=
  ((v.x - a.x) / edist a v) * ((b.x - v.x) / edist v b) + ((v.y - a.y) / edist a v) * ((b.y - v.y) / edist v b)

/-- Half of that turn, as an angle. -/
noncomputable def halfTurn (a v b : V2 ℝ) : ℝ := Real.arctan (turnSin a v b / (1 + turnCos a v b))

/-- The length by which the mitre at `v` shortens the two moved sides; negative on the outer side of the turn. -/
noncomputable def setback (a v b : V2 ℝ) (d : ℝ) : ℝ := d * (turnSin a v b / (1 + turnCos a v b))

section
variable (p : Pline ℝ) (d : ℝ)

/-- Position of a vertex -/
noncomputable def cornerPos (k : Nat) : V2 ℝ := (vtx p k).pos

/-- Length of side `k` -/
noncomputable def sideLen (k : Nat) : ℝ := edist (cornerPos p k) (cornerPos p (k + 1))

/-- The setback at the corner between side `k` and the next one -/
noncomputable def setbackAt (k : Nat) : ℝ := setback (cornerPos p k) (cornerPos p (k + 1)) (cornerPos p (k + 2)) d

/-- The moved sides meet at the corner after side `k`. -/
def Mitred (k : Nat) : Prop := 0 ≤ setbackAt p d k ∧ setbackAt p d k ≤ sideLen p k ∧ setbackAt p d k ≤ sideLen p (k + 1)

/-- A point of a moved side -/
noncomputable def sidePt (k : Nat) (u : ℝ) : V2 ℝ := moved (cornerPos p k) (cornerPos p (k + 1)) d u

open Classical in
/-- The fraction of the moved side `k` at which its part of the raw offset ends. -/
noncomputable def sideEnd (k : Nat) : ℝ := if Mitred p d k then 1 - setbackAt p d k / sideLen p k else 1

open Classical in
/-- The fraction of the moved side `k` at which its part of the raw offset starts. -/
noncomputable def sideStart (k : Nat) : ℝ :=
  if Mitred p d (k + p.verts.length - 1) then setbackAt p d (k + p.verts.length - 1) / sideLen p k else 0

/-- The parts of the raw offset: part of a moved side; arc or straight connection at the corner after a side. -/
inductive RawPart
  | side (k : Nat)
  | corner (k : Nat)
deriving DecidableEq

/-- The vertex with which a part starts. -/
noncomputable def RawPart.start : RawPart → Vertex ℝ
  | .side k => Vertex.ofV2 (sidePt p d k (sideStart p d k)) 0
  | .corner k => Vertex.ofV2 (sidePt p d k 1)
      (if setbackAt p d k < 0 then Real.tan (halfTurn (cornerPos p k) (cornerPos p (k + 1)) (cornerPos p (k + 2)) / 2) else 0)

open Classical in
/-- All parts in order. -/
noncomputable def loopParts : List RawPart :=
  (List.range p.verts.length).flatMap fun k => if Mitred p d k then [.side k] else [.side k, .corner k]

/-- The raw offset. -/
noncomputable def rawLoop : Pline ℝ := ⟨(loopParts p d).map (RawPart.start p d), true⟩

/-- The corner after side `k` is a clear one: the sides are not parallel for the test of the code; the setback is not within
the tolerance of the values at which the kind of the corner changes; an arc is not so flat that the code takes it for a line. -/
structure ClearTurn (eps : ℝ) (k : Nat) : Prop where
  cross : eps ≤ |((cornerPos p (k + 1)).x - (cornerPos p k).x) * ((cornerPos p (k + 2)).y - (cornerPos p (k + 1)).y)
    - ((cornerPos p (k + 1)).y - (cornerPos p k).y) * ((cornerPos p (k + 2)).x - (cornerPos p (k + 1)).x)|
  kind : setbackAt p d k ≤ -eps ∨ (0 ≤ setbackAt p d k ∧ setbackAt p d k ≤ sideLen p k ∧ setbackAt p d k ≤ sideLen p (k + 1)) ∨
    sideLen p k + eps ≤ setbackAt p d k ∨ sideLen p (k + 1) + eps ≤ setbackAt p d k
  round : setbackAt p d k < 0 → 1 / 100000000 ≤ |Real.tan (halfTurn (cornerPos p k) (cornerPos p (k + 1)) (cornerPos p (k + 2)) / 2)|

/-- The point of the arc around `v`, from the moved end of the side `a v` to the moved start of the side `v b`, after the
fraction `t`. -/
noncomputable def cornerArc (a v b : V2 ℝ) (d t : ℝ) : V2 ℝ :=
  ⟨v.x + (rotV (t * (2 * halfTurn a v b)) ⟨(moved a v d 1).x - v.x, (moved a v d 1).y - v.y⟩).x,
   v.y + (rotV (t * (2 * halfTurn a v b)) ⟨(moved a v d 1).x - v.x, (moved a v d 1).y - v.y⟩).y⟩

/-- The point is at least `r` away from every point of the polyline. -/
def Keeps (r : ℝ) (X : V2 ℝ) : Prop := ∀ q, OnPline p q → r ≤ edist X q

/-- The point is beside a side, at the distance `|d|`: on the left for positive `d`, on the right for negative `d`. -/
def Beside (X : V2 ℝ) : Prop := ∃ k u, 0 ≤ u ∧ u ≤ 1 ∧ X = sidePt p d k u

/-- The point is on the arc around a corner, on the outer side of the turn, with that side being the one of `d`. -/
def Around (X : V2 ℝ) : Prop := ∃ k t, setbackAt p d k < 0 ∧ 0 ≤ t ∧ t ≤ 1 ∧ X = cornerArc (cornerPos p k) (cornerPos p (k + 1)) (cornerPos p (k + 2)) d t

/-- The exact parallel curve: the points at the distance `|d|` beside a side or around a corner, with no point of the polyline
nearer than that. -/
structure OffsetPt (X : V2 ℝ) : Prop where
  keeps : Keeps p |d| X
  place : Beside p d X ∨ Around p d X

end

end Cavc
