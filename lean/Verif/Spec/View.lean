import Verif.Model.View
import Verif.Spec.Path

/-! # Specification of views

A view of a source with `n` vertexes starts on the segment `startIndex` and then passes the source
vertexes `startIndex + 1, …, startIndex + endIndexOffset` (cyclically) before it ends. -/

namespace Cavc
variable {T : Type} [Scalar T]

/-- the source vertex at a cyclic position -/
def cycAt (src : Pline T) (i : Nat) : Option (Vertex T) := src.verts[i % src.verts.length]?

/-- The indexes of the view data are in range for the source. -/
structure ViewData.InRange (d : ViewData T) (src : Pline T) : Prop where
  start : d.startIndex < src.verts.length
  offset : d.endIndexOffset ≤ src.verts.length

/-- `vs` is the vertex list of a view that runs forward: it starts at `start`, passes the `k` source
vertexes after position `s` with their own bulge (the last one with bulge `endBulge`) and ends at
`stop`. -/
structure IsForwardSlice (src : Pline T) (s k : Nat) (start : Vertex T) (endBulge : T) (stop : V2 T)
    (vs : List (Vertex T)) : Prop where
  count : vs.length = k + 2
  first : vs[0]? = some start
  interior : ∀ i, 1 ≤ i → i < k → vs[i]? = cycAt src (s + i)
  final : 1 ≤ k → vs[k]? = (cycAt src (s + k)).map fun v => ⟨v.x, v.y, endBulge⟩
  last : vs[k + 1]? = some ⟨stop.x, stop.y, 0⟩

end Cavc
