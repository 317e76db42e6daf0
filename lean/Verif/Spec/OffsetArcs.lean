import Verif.Spec.OffsetStraight
import Verif.Spec.ClearLines

/-! # Specification: the raw offset of a closed polyline of lines and arcs

Every segment is replaced by the parallel segment; for an arc that is the arc with the same center and the same sweep.  At
every corner the two parallel segments are cut at a common point, or linked by an arc or a straight line. -/

namespace Cavc

/-- How the raw offset goes on at a corner: both parallel segments are cut at a common point, which is after the fraction `t`
of the first and after the fraction `u` of the second; or the end of the first and the start of the second are linked by a
segment with the bulge `b`. -/
inductive Corner
  | cut (t u : ℝ)
  | link (b : ℝ)

/-- The fraction at which the segment before the corner stops -/
def Corner.stop : Corner → ℝ
  | .cut t _ => t
  | .link _ => 1

/-- The fraction at which the segment after the corner starts -/
def Corner.start : Corner → ℝ
  | .cut _ u => u
  | .link _ => 0

/-- The radius of the parallel arc: less on the side of the center (left of a counter clockwise arc), more on the other. -/
noncomputable def offRadius (v w : Vertex ℝ) (d : ℝ) : ℝ := arcRadius v.pos w.pos v.bulge + if v.bulge < 0 then d else -d

open Classical in
/-- The segment parallel to the one from `v` to `w`, at the distance `d` to the left. -/
noncomputable def parSeg (v w : Vertex ℝ) (d : ℝ) : Vertex ℝ × Vertex ℝ :=
  if IsLine v then (Vertex.ofV2 (moved v.pos w.pos d 0) 0, Vertex.ofV2 (moved v.pos w.pos d 1) 0)
  else
    let c := arcCenter v.pos w.pos v.bulge
    let k := offRadius v w d / arcRadius v.pos w.pos v.bulge
    (⟨c.x + k * (v.x - c.x), c.y + k * (v.y - c.y), v.bulge⟩, ⟨c.x + k * (w.x - c.x), c.y + k * (w.y - c.y), w.bulge⟩)

/-- The vertex with which the part of the segment `s` between two fractions starts. -/
noncomputable def partVertex (s : Vertex ℝ × Vertex ℝ) (lo hi : ℝ) : Vertex ℝ :=
  Vertex.ofV2 (segCurve s.1 s.2 lo) (Real.tan ((hi - lo) * Real.arctan s.1.bulge))

/-- The arc from `P` to `Q` with the bulge `b` is the one with which the code goes around `V`: it turns by the angle between `P` and
`Q` as seen from `V`, counter clockwise for negative `d` and clockwise otherwise. -/
def Round (V P Q : V2 ℝ) (d b : ℝ) : Prop :=
  ∃ θ, |θ| ≤ Real.pi ∧ Q.x - V.x = (rotV θ ⟨P.x - V.x, P.y - V.y⟩).x ∧ Q.y - V.y = (rotV θ ⟨P.x - V.x, P.y - V.y⟩).y ∧
    b = if d < 0 then Real.tan (|θ| / 4) else -Real.tan (|θ| / 4)

/-- The point is clearly not on the arc. -/
def OffArc (a : Vertex ℝ × Vertex ℝ) (X : V2 ℝ) (eps : ℝ) : Prop := SweepClear a.1 a.2 X eps ∧ ¬ OnSeg a.1 a.2 X

/-- The line of `w` clearly misses the circle of `a`. -/
def FarLine (w a : Vertex ℝ × Vertex ℝ) (eps : ℝ) : Prop :=
  ∀ s, segRadius a + 2 * eps < edist (linePoint w.1.pos w.2.pos s) (segCenter a)

/-- The common point of the line of `w` and the circle of `a` that is nearest to `V` is after the fraction `t` of `w`. -/
inductive NearestOnLine (w a : Vertex ℝ × Vertex ℝ) (V : V2 ℝ) (eps t : ℝ) : Prop
  | touch (on : OnCircle (segCenter a) (segRadius a) (linePoint w.1.pos w.2.pos t))
      (outside : ∀ s, segRadius a ≤ edist (linePoint w.1.pos w.2.pos s) (segCenter a))
  | two (on : OnCircle (segCenter a) (segRadius a) (linePoint w.1.pos w.2.pos t))
      (deep : ∃ s, edist (linePoint w.1.pos w.2.pos s) (segCenter a) + eps ≤ segRadius a)
      (near : ∀ s, s ≠ t → OnCircle (segCenter a) (segRadius a) (linePoint w.1.pos w.2.pos s) →
        edist (linePoint w.1.pos w.2.pos t) V < edist (linePoint w.1.pos w.2.pos s) V)

/-- The circles of two arcs clearly miss each other. -/
def FarArcs (a b : Vertex ℝ × Vertex ℝ) (eps : ℝ) : Prop :=
  (eps ≤ edist (segCenter a) (segCenter b) ∧ (segRadius a + segRadius b + eps ≤ edist (segCenter a) (segCenter b) ∨
    edist (segCenter a) (segCenter b) + eps ≤ |segRadius a - segRadius b|)) ∨
  (edist (segCenter a) (segCenter b) < eps ∧ eps ≤ |segRadius a - segRadius b|)

/-- The point is on the circles of both arcs. -/
def OnBoth (a b : Vertex ℝ × Vertex ℝ) (X : V2 ℝ) : Prop := OnCircle (segCenter a) (segRadius a) X ∧ OnCircle (segCenter b) (segRadius b) X

/-- `X` is the common point of the circles of two arcs that is nearest to `V`.  If the two common points are equally near for
the code, it is the one that is on both arcs. -/
inductive NearestOnArcs (a b : Vertex ℝ × Vertex ℝ) (V : V2 ℝ) (eps : ℝ) (X : V2 ℝ) : Prop
  | touch (on : OnBoth a b X) (centers : eps ≤ edist (segCenter a) (segCenter b))
      (tangent : edist (segCenter a) (segCenter b) = segRadius a + segRadius b ∨ edist (segCenter a) (segCenter b) = |segRadius a - segRadius b|)
  | two (Y : V2 ℝ) (on : OnBoth a b X) (other : OnBoth a b Y) (centers : eps ≤ edist (segCenter a) (segCenter b)) (apart : Apart X Y (2 * eps))
      (near : edist X V ^ 2 + eps ≤ edist Y V ^ 2)
  | tie (Y : V2 ℝ) (on : OnBoth a b X) (other : OnBoth a b Y) (centers : eps ≤ edist (segCenter a) (segCenter b)) (apart : Apart X Y (2 * eps))
      (near : |edist X V ^ 2 - edist Y V ^ 2| < eps) (off : OffArc a Y eps ∨ OffArc b Y eps)

section
variable (p : Pline ℝ) (d : ℝ)

/-- The segment parallel to segment `k` -/
noncomputable def parAt (k : Nat) : Vertex ℝ × Vertex ℝ := parSeg (vtx p k) (vtx p (k + 1)) d

/-- Its curve -/
noncomputable def parCurve (k : Nat) (t : ℝ) : V2 ℝ := segCurve (parAt p d k).1 (parAt p d k).2 t

/-- What the code does at the corner after segment `k`, if the situation there is a clear one. -/
inductive ClearCorner (eps : ℝ) (k : Nat) : Corner → Prop
  | mitre (h1 : IsLine (vtx p k)) (h2 : IsLine (vtx p (k + 1))) (h : ClearTurn p d eps k) (hm : Mitred p d k) :
      ClearCorner eps k (.cut (1 - setbackAt p d k / sideLen p k) (setbackAt p d k / sideLen p (k + 1)))
  | round (h1 : IsLine (vtx p k)) (h2 : IsLine (vtx p (k + 1))) (h : ClearTurn p d eps k) (hm : setbackAt p d k < 0) :
      ClearCorner eps k (.link (Real.tan (halfTurn (cornerPos p k) (cornerPos p (k + 1)) (cornerPos p (k + 2)) / 2)))
  | chord (h1 : IsLine (vtx p k)) (h2 : IsLine (vtx p (k + 1))) (h : ClearTurn p d eps k) (hm : ¬ Mitred p d k) (hs : 0 ≤ setbackAt p d k) :
      ClearCorner eps k (.link 0)
  | lineArcCut (t u : ℝ) (h1 : IsLine (vtx p k)) (h2 : ¬ IsLine (vtx p (k + 1))) (hw : LineOk (parAt p d k).1.pos (parAt p d k).2.pos eps)
      (hn : NearestOnLine (parAt p d k) (parAt p d (k + 1)) (cornerPos p (k + 1)) eps t) (t0 : 0 ≤ t) (t1 : t ≤ 1) (u0 : 0 ≤ u) (u1 : u < 1)
      (meet : parCurve p d k t = parCurve p d (k + 1) u) : ClearCorner eps k (.cut t u)
  | lineArcRound (b : ℝ) (h1 : IsLine (vtx p k)) (h2 : ¬ IsLine (vtx p (k + 1))) (hw : LineOk (parAt p d k).1.pos (parAt p d k).2.pos eps)
      (hn : FarLine (parAt p d k) (parAt p d (k + 1)) eps ∨ ∃ t, NearestOnLine (parAt p d k) (parAt p d (k + 1)) (cornerPos p (k + 1)) eps t ∧
        1 < t ∧ OffArc (parAt p d (k + 1)) (parCurve p d k t) eps)
      (hb : Round (cornerPos p (k + 1)) (parAt p d k).2.pos (parAt p d (k + 1)).1.pos d b) : ClearCorner eps k (.link b)
  | lineArcChord (t : ℝ) (h1 : IsLine (vtx p k)) (h2 : ¬ IsLine (vtx p (k + 1))) (hw : LineOk (parAt p d k).1.pos (parAt p d k).2.pos eps)
      (hn : NearestOnLine (parAt p d k) (parAt p d (k + 1)) (cornerPos p (k + 1)) eps t)
      (ht : t < 0 ∨ (0 ≤ t ∧ t ≤ 1 ∧ OffArc (parAt p d (k + 1)) (parCurve p d k t) eps) ∨
        (1 < t ∧ OnSeg (parAt p d (k + 1)).1 (parAt p d (k + 1)).2 (parCurve p d k t))) : ClearCorner eps k (.link 0)
  | arcLineCut (t u : ℝ) (h1 : ¬ IsLine (vtx p k)) (h2 : IsLine (vtx p (k + 1))) (hw : LineOk (parAt p d (k + 1)).1.pos (parAt p d (k + 1)).2.pos eps)
      (hn : NearestOnLine (parAt p d (k + 1)) (parAt p d k) (cornerPos p (k + 1)) eps u) (t0 : 0 < t) (t1 : t ≤ 1) (u0 : 0 ≤ u) (u1 : u ≤ 1)
      (meet : parCurve p d k t = parCurve p d (k + 1) u) : ClearCorner eps k (.cut t u)
  | arcLineRound (b : ℝ) (h1 : ¬ IsLine (vtx p k)) (h2 : IsLine (vtx p (k + 1))) (hw : LineOk (parAt p d (k + 1)).1.pos (parAt p d (k + 1)).2.pos eps)
      (hn : FarLine (parAt p d (k + 1)) (parAt p d k) eps ∨ ∃ u, NearestOnLine (parAt p d (k + 1)) (parAt p d k) (cornerPos p (k + 1)) eps u ∧
        (u < 0 ∨ 1 < u ∨ OffArc (parAt p d k) (parCurve p d (k + 1) u) eps))
      (hb : Round (cornerPos p (k + 1)) (parAt p d k).2.pos (parAt p d (k + 1)).1.pos d b) : ClearCorner eps k (.link b)
  | arcsCut (t u : ℝ) (h1 : ¬ IsLine (vtx p k)) (h2 : ¬ IsLine (vtx p (k + 1)))
      (hn : NearestOnArcs (parAt p d k) (parAt p d (k + 1)) (cornerPos p (k + 1)) eps (parCurve p d k t)) (t0 : 0 < t) (t1 : t ≤ 1) (u0 : 0 ≤ u) (u1 : u < 1)
      (meet : parCurve p d k t = parCurve p d (k + 1) u) : ClearCorner eps k (.cut t u)
  | arcsRound (b : ℝ) (h1 : ¬ IsLine (vtx p k)) (h2 : ¬ IsLine (vtx p (k + 1)))
      (hn : FarArcs (parAt p d k) (parAt p d (k + 1)) eps ∨ ∃ X, NearestOnArcs (parAt p d k) (parAt p d (k + 1)) (cornerPos p (k + 1)) eps X ∧
        (OffArc (parAt p d k) X eps ∨ OffArc (parAt p d (k + 1)) X eps))
      (hb : Round (cornerPos p (k + 1)) (parAt p d k).2.pos (parAt p d (k + 1)).1.pos d b) : ClearCorner eps k (.link b)
  | arcsSame (h1 : ¬ IsLine (vtx p k)) (h2 : ¬ IsLine (vtx p (k + 1))) (hc : segCenter (parAt p d k) = segCenter (parAt p d (k + 1)))
      (hr : segRadius (parAt p d k) = segRadius (parAt p d (k + 1))) (he : (parAt p d k).2.pos = (parAt p d (k + 1)).1.pos) : ClearCorner eps k (.cut 1 0)

variable (c : Nat → Corner)

/-- The fraction of the parallel segment `k` at which the raw offset leaves it -/
noncomputable def leaveAt (k : Nat) : ℝ := (c (k % p.verts.length)).stop

/-- The fraction of the parallel segment `k` at which the raw offset enters it -/
noncomputable def enterAt (k : Nat) : ℝ := (c ((k + p.verts.length - 1) % p.verts.length)).start

/-- The vertex of the link at the corner after segment `k`, if there is one. -/
noncomputable def linkVertex (k : Nat) : List (Vertex ℝ) :=
  match c (k % p.verts.length) with
  | .cut _ _ => []
  | .link b => [Vertex.ofV2 (parAt p d k).2.pos b]

/-- The raw offset with these corners. -/
noncomputable def rawWith : Pline ℝ :=
  ⟨(List.range p.verts.length).flatMap fun k => partVertex (parAt p d k) (enterAt p c k) (leaveAt p c k) :: linkVertex p d c k, true⟩

/-- The corners are clear ones, and what is left of each parallel segment runs forward. -/
structure ClearOffset (eps : ℝ) : Prop where
  loop : FullLoop p eps
  moves : d ≠ 0
  /-- no arc is collapsed -/
  radius : ∀ k, IsLine (vtx p k) ∨ 1 / 100000000 ≤ offRadius (vtx p k) (vtx p (k + 1)) d
  corners : ∀ k < p.verts.length, ClearCorner p d eps k (c k)
  forward : ∀ k, enterAt p c k < leaveAt p c k
  /-- what is left of an arc is not so flat that the code takes it for a line -/
  long : ∀ k, LongPart (parAt p d k).1 (enterAt p c k) (leaveAt p c k)
  /-- an arc that is cut at its end has its start further than `eps` from that end -/
  room : ∀ k, ¬ IsLine (vtx p k) → (parCurve p d k (enterAt p c k)).fuzzyEqEps (parAt p d k).2.pos eps = false ∧
    (parAt p d k).1.pos.fuzzyEqEps (parAt p d k).2.pos eps = false
  /-- the vertexes of the raw offset are further than `eps` from their successors -/
  full : FullLoop (rawWith p d c) eps
  /-- the same holds if the first parallel segment is not cut at its start -/
  first : (parAt p d 0).1.pos.fuzzyEqEps (vtx (rawWith p d c) 1).pos eps = false

end

end Cavc
