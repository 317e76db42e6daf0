import Verif.Model.Pline

/-! # Editing calls and the public iterators -/

namespace Cavc.Pline
variable {T : Type} [Scalar T]

/-- The editing calls of `PlineSourceMut` for `Polyline`, `polyline/pline.rs:100-148`,
`polyline/traits.rs:1554-1626, 1683`.  The variants taking components (`set`, `insert`, `add`,
`add_from_array`) build the vertex and call these; `reserve` has no observable effect. -/
inductive Edit (T : Type) where
  | set (i : Nat) (v : Vertex T)
  | setLast (v : Vertex T)
  | insert (i : Nat) (v : Vertex T)
  | remove (i : Nat)
  | removeLast
  | clear
  | add (v : Vertex T)
  | extend (other : Pline T)
  | setIsClosed (c : Bool)

/-- One editing call: the vertex it returns, if any, and the polyline after it,
`polyline/pline.rs:100-148`. -/
def edit (p : Pline T) : Edit T → M (Option (Vertex T) × Pline T)
  | .set i v => do let q ← p.setVertex i v; .ok (none, q)
  | .setLast v => do let q ← p.setLast v; .ok (none, q)
  | .insert i v => do let q ← p.insertVertex i v; .ok (none, q)
  | .remove i => do let r ← p.remove i; .ok (some r.1, r.2)
  | .removeLast => do let r ← p.removeLast; .ok (some r.1, r.2)
  | .clear => .ok (none, p.clear)
  | .add v => .ok (none, p.addVertex v)
  | .extend other => .ok (none, p.extendVertexes other.verts)
  | .setIsClosed c => .ok (none, p.setIsClosed c)

/-- `VertexIter`, `polyline/traits.rs:1820-1827`. -/
structure VertexIter where
  pos : Nat
  «end» : Nat

/-- `VertexIter::new`, `polyline/traits.rs:1834-1840`. -/
def VertexIter.new (p : Pline T) : VertexIter := ⟨0, p.vertexCount⟩

/-- `VertexIter::next`, `polyline/traits.rs:1864-1871`. -/
def VertexIter.next (p : Pline T) (it : VertexIter) : Option (Vertex T) × VertexIter :=
  if it.pos = it.«end» then (none, it) else (p.get it.pos, { it with pos := it.pos + 1 })

/-- `VertexIter::next_back`, `polyline/traits.rs:1896-1904`. -/
def VertexIter.nextBack (p : Pline T) (it : VertexIter) : M (Option (Vertex T) × VertexIter) :=
  if it.pos = it.«end» then .ok (none, it)
  else if it.«end» = 0 then .error .underflow
  else .ok (p.get (it.«end» - 1), { it with «end» := it.«end» - 1 })

/-- `VertexIter::size_hint` and `len`, `polyline/traits.rs:1874-1889`. -/
def VertexIter.sizeHint (it : VertexIter) : M Nat :=
  if it.«end» < it.pos then .error .underflow else .ok (it.«end» - it.pos)

/-- `SegmentIter::size_hint` and `len`, `polyline/traits.rs:1974-1998`. -/
def SegIter.sizeHint (p : Pline T) (it : SegIter) : M Nat :=
  if it.exhausted then .ok 0
  else if p.closed then
    if p.vertexCount < it.pos then .error .underflow else .ok (p.vertexCount - it.pos)
  else
    if p.vertexCount < it.pos + 1 then .error .underflow else .ok (p.vertexCount - it.pos - 1)

/-- `PlineSegIndexIterator::size_hint`, `polyline/traits.rs:2045-2047`. -/
def SegIdxIter.sizeHint (it : SegIdxIter) : Nat := it.remaining

/-- A client pulling from both ends: `true` calls `next`, `false` calls `next_back`.  The list of
answers, each with the size hint after the call. -/
def VertexIter.run (p : Pline T) : VertexIter → List Bool → M (List (Option (Vertex T) × Nat))
  | _, [] => .ok []
  | it, b :: calls => do
    let r ← (if b then .ok (it.next p) else it.nextBack p : M (Option (Vertex T) × VertexIter))
    let n ← r.2.sizeHint
    let rest ← VertexIter.run p r.2 calls
    .ok ((r.1, n) :: rest)

/-- A client calling `next` of a `SegmentIter` a number of times: the answers, each with the size
hint after the call. -/
def SegIter.run (p : Pline T) : SegIter → Nat → M (List (Option (Vertex T × Vertex T) × Nat))
  | _, 0 => .ok []
  | it, k + 1 => do
    let r ← it.next p
    let n ← r.2.sizeHint p
    let rest ← SegIter.run p r.2 k
    .ok ((r.1, n) :: rest)

/-- The same for `PlineSegIndexIterator`. -/
def SegIdxIter.run : SegIdxIter → Nat → List (Option (Nat × Nat) × Nat)
  | _, 0 => []
  | it, k + 1 => (it.next.1, it.next.2.sizeHint) :: SegIdxIter.run it.next.2 k

end Cavc.Pline
