import Verif.Model.Pline

/-! # Specification of repeat position removal -/

namespace Cavc
variable {T : Type} [Scalar T]

/-- Merge runs of near positions: a run keeps the position of its first vertex and the bulge of its
last one.  `near cur v` says that `v` repeats the position `cur` of the run. -/
def mergeRuns (near : V2 T → V2 T → Bool) (cur : Vertex T) : List (Vertex T) → List (Vertex T)
  | [] => [cur]
  | v :: rest =>
    if near cur.pos v.pos then mergeRuns near ⟨cur.x, cur.y, v.bulge⟩ rest
    else cur :: mergeRuns near v rest

/-- `mergeRuns` on a whole vertex list. -/
def mergeRepeats (near : V2 T → V2 T → Bool) : List (Vertex T) → List (Vertex T)
  | [] => []
  | v :: rest => mergeRuns near v rest

/-- No vertex is near the vertex before it. -/
def NoRepeats (near : V2 T → V2 T → Bool) : List (Vertex T) → Prop
  | a :: b :: rest => near a.pos b.pos = false ∧ NoRepeats near (b :: rest)
  | _ => True

end Cavc
