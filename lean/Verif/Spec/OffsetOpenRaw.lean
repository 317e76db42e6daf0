import Verif.Spec.OffsetArcs
import Verif.Spec.OffsetOpen

/-! # Specification: the raw offset of an open polyline of lines and arcs

As for closed polylines, but there is no corner at the ends: the first parallel segment is entered at its start, and the last
one is left at its end. -/

namespace Cavc

section
variable (p : Pline ℝ) (d : ℝ) (c : Nat → Corner)

/-- The fraction of the parallel segment `k` at which the raw offset enters it -/
noncomputable def pathEnter (k : Nat) : ℝ := if k = 0 then 0 else (c (k - 1)).start

/-- The fraction of the parallel segment `k` at which the raw offset leaves it -/
noncomputable def pathLeave (k : Nat) : ℝ := if k + 2 < p.verts.length then (c k).stop else 1

/-- The vertex of the link at the corner after segment `k`, if there is one. -/
noncomputable def pathLink (k : Nat) : List (Vertex ℝ) :=
  if k + 2 < p.verts.length then
    match c k with
    | .cut _ _ => []
    | .link b => [Vertex.ofV2 (parAt p d k).2.pos b]
  else []

/-- The raw offset of an open polyline with these corners. -/
noncomputable def rawPath : Pline ℝ :=
  ⟨(List.range (p.verts.length - 1)).flatMap (fun k => partVertex (parAt p d k) (pathEnter c k) (pathLeave p c k) :: pathLink p d c k) ++
    [(parAt p d (p.verts.length - 2)).2], false⟩

/-- The corners are clear ones, and what is left of each parallel segment runs forward. -/
structure ClearPath (eps : ℝ) : Prop where
  path : FullPath p eps
  moves : d ≠ 0
  /-- no arc is collapsed -/
  radius : ∀ k, k + 1 < p.verts.length → IsLine (vtx p k) ∨ 1 / 100000000 ≤ offRadius (vtx p k) (vtx p (k + 1)) d
  corners : ∀ k, k + 2 < p.verts.length → ClearCorner p d eps k (c k)
  forward : ∀ k, k + 1 < p.verts.length → pathEnter c k < pathLeave p c k
  /-- what is left of an arc is not so flat that the code takes it for a line -/
  long : ∀ k, k + 1 < p.verts.length → LongPart (parAt p d k).1 (pathEnter c k) (pathLeave p c k)
  /-- an arc that is cut at its end has its start further than `eps` from that end -/
  room : ∀ k, k + 2 < p.verts.length → ¬ IsLine (vtx p k) → (parCurve p d k (pathEnter c k)).fuzzyEqEps (parAt p d k).2.pos eps = false
  /-- the vertexes of the raw offset are further than `eps` from their successors -/
  full : FullPath (rawPath p d c) eps

end

end Cavc
