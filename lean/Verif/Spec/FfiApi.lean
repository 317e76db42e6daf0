import Verif.Model.FfiCall

/-!
# What the C interface documents

Handles and buffers a call takes, the documented cause of each error code, and the meaning of the
polyline calls as operations on vertex lists.
-/

namespace Cavc
variable {T : Type}

/-- Kinds of objects behind handles. -/
inductive HandleKind where
  | pline | list | index
deriving DecidableEq

/-- The handles a call takes. -/
def Call.handles : Call T → List (Ptr × HandleKind)
  | .create _ _ _ => []
  | .free p | .reserve p _ | .clone p | .getIsClosed p | .setIsClosed p _ | .getVertexCount p
  | .getVertexData p _ | .setVertexData p _ _ | .clear p | .add p _ _ _ | .getVertex p _
  | .setVertex p _ _ | .remove p _ | .evalPathLength p | .evalArea p | .evalWn p _ _
  | .invertDirection p | .scale p _ | .translate p _ _ | .removeRepeatPos p _
  | .removeRedundant p _ | .evalExtents p | .parallelOffset p _ _ | .createApproxAabbIndex p
  | .createAabbIndex p => [(p, .pline)]
  | .boolean p q _ _ _ => [(p, .pline), (q, .pline)]
  | .aabbIndexFree i | .aabbIndexGetExtents i => [(i, .index)]
  | .listFree l | .listGetCount l | .listGetPline l _ | .listPop l | .listTake l _ => [(l, .list)]

/-- The free functions: "nothing happens" for null. -/
def Call.isFree : Call T → Bool
  | .free _ | .aabbIndexFree _ | .listFree _ => true
  | _ => false

/-- Calls with an out parameter. -/
def Call.hasOut : Call T → Bool
  | .create _ _ _ | .clone _ | .getIsClosed _ | .getVertexCount _ | .getVertexData _ _
  | .getVertex _ _ | .evalPathLength _ | .evalArea _ | .evalWn _ _ _ | .evalExtents _
  | .parallelOffset _ _ _ | .boolean _ _ _ _ _ | .createApproxAabbIndex _ | .createAabbIndex _
  | .aabbIndexGetExtents _ | .listGetCount _ | .listGetPline _ _ | .listPop _ | .listTake _ _ => true
  | _ => false

/-- Some handle is null. -/
def Call.hasNull (c : Call T) : Prop := ∃ k, (0, k) ∈ c.handles

/-- The polyline behind a handle: its vertexes and whether it is closed. -/
def Heap.plineAt (h : Heap T) (p : Ptr) : Option (List (Vertex T) × Bool) :=
  match h.cells p with
  | some (.pline pl) => some (pl.verts, pl.closed)
  | _ => none

/-- The polylines listed by a list handle. -/
def Heap.listAt (h : Heap T) (l : Ptr) : Option (List Ptr) :=
  match h.cells l with
  | some (.plinelist ps) => some ps
  | _ => none

/-- A live object of the given kind is at the address. -/
def Heap.Live (h : Heap T) (p : Ptr) : HandleKind → Prop
  | .pline => ∃ pl, h.cells p = some (.pline pl)
  | .list => ∃ ps, h.cells p = some (.plinelist ps)
  | .index => ∃ bs, h.cells p = some (.aabbindex bs)

/-- The `# Safety` sections: every handle is null or a live object of its kind, and buffers are
large enough. -/
def Call.Safe (h : Heap T) (c : Call T) : Prop :=
  (∀ p k, (p, k) ∈ c.handles → p = 0 ∨ h.Live p k) ∧
  match c with
  | .create vs n _ => vs = none ∨ ∃ l, vs = some l ∧ n ≤ l.length
  | .setVertexData _ d n => ∃ l, d = some l ∧ n ≤ l.length
  | .getVertexData p cap => ∀ vs cl, h.plineAt p = some (vs, cl) → vs.length ≤ cap
  | _ => True

/-- The documented causes of error code 2 (apart from null handles, which are code 1). -/
def Call.RangeError (h : Heap T) : Call T → Prop
  | .getVertex p i | .setVertex p i _ | .remove p i => ∃ vs cl, h.plineAt p = some (vs, cl) ∧ vs.length ≤ i
  | .evalExtents p => ∃ vs cl, h.plineAt p = some (vs, cl) ∧ vs.length < 2
  | .boolean _ _ op _ _ => op ≠ 0 ∧ op ≠ 1 ∧ op ≠ 2 ∧ op ≠ 3
  | .listGetPline l i | .listTake l i => ∃ ps, h.listAt l = some ps ∧ ps.length ≤ i
  | .listPop l => h.listAt l = some []
  | _ => False

/-- The calls that can fail internally, and the internal failure. -/
def Call.Panics [Scalar T] (env : Env T) (h : Heap T) : Call T → Prop
  | .removeRedundant p eps => ∃ pl e, h.cells p = some (.pline pl) ∧ pl.removeRedundant eps = .error e
  | .parallelOffset p d opts => ∃ pl e, h.cells p = some (.pline pl) ∧ Cavc.parallelOffset env pl d opts = .error e
  | .boolean p q op idx eps => ∃ a b o e, h.cells p = some (.pline a) ∧ h.cells q = some (.pline b) ∧
      booleanOpFromU32 op = some o ∧ polylineBoolean env a b o idx eps = .error e
  | .getVertexCount p => ∃ vs cl, h.plineAt p = some (vs, cl) ∧ 2 ^ 32 ≤ vs.length
  | .listGetCount l => ∃ ps, h.listAt l = some ps ∧ 2 ^ 32 ≤ ps.length
  | _ => False

/-- Content of a polyline: vertexes and closed flag. -/
abbrev Content (T : Type) := List (Vertex T) × Bool

/-- Content after a computation on the polyline (unchanged if it fails or returns nothing new). -/
def Content.after (x : Content T) (r : M (Option (Pline T))) : Content T :=
  match r with
  | .ok (some q) => (q.verts, q.closed)
  | _ => x

/-- What a call does to the content of a polyline it is given; `none` for calls that leave their
arguments alone. -/
def Call.change [Scalar T] : Call T → Option (Ptr × (Content T → Content T))
  | .setIsClosed p c => some (p, fun x => (x.1, c != 0))
  | .setVertexData p d n => some (p, fun x => ((d.getD []).take n, x.2))
  | .clear p => some (p, fun x => ([], x.2))
  | .add p a b c => some (p, fun x => (x.1 ++ [⟨a, b, c⟩], x.2))
  | .setVertex p i v => some (p, fun x => (if i < x.1.length % 2 ^ 32 then x.1.set i v else x.1, x.2))
  | .remove p i => some (p, fun x => (x.1.eraseIdx i, x.2))
  | .invertDirection p => some (p, fun x => x.after ((⟨x.1, x.2⟩ : Pline T).invertDirectionMut.map some))
  | .scale p s => some (p, fun x => (x.1.map fun v => ⟨s * v.x, s * v.y, v.bulge⟩, x.2))
  | .translate p a b => some (p, fun x => (x.1.map fun v => ⟨v.x + a, v.y + b, v.bulge⟩, x.2))
  | .removeRepeatPos p eps => some (p, fun x => x.after ((⟨x.1, x.2⟩ : Pline T).removeRepeatPos eps))
  | .removeRedundant p eps => some (p, fun x => x.after ((⟨x.1, x.2⟩ : Pline T).removeRedundant eps))
  | _ => none

/-- What a call means for the polyline behind the handle `p`. -/
def Call.effectOn [Scalar T] (p : Ptr) (c : Call T) (x : Option (Content T)) : Option (Content T) :=
  match c with
  | .free q => if q = p then none else x
  | c => match c.change with
    | some (q, f) => if q = p then x.map f else x
    | none => x

/-- No live object beyond the allocation mark, none at the null address. -/
def Heap.Ok (h : Heap T) : Prop := 0 < h.next ∧ h.cells 0 = none ∧ ∀ p, h.next ≤ p → h.cells p = none

/-- What a call means for the list behind the handle `l`: `pop` drops the last entry, `take` drops
the entry at the position and keeps the order of the rest, freeing the list ends it. -/
def Call.effectOnList (l : Ptr) (c : Call T) (x : Option (List Ptr)) : Option (List Ptr) :=
  match c with
  | .listPop k => if k = l then x.map List.dropLast else x
  | .listTake k i => if k = l then x.map (fun ps => ps.eraseIdx i) else x
  | .listFree k => if k = l then none else x
  | _ => x

/-- Some list owns the polyline. -/
def Heap.Owns (h : Heap T) (p : Ptr) : Prop := ∃ l ps, h.listAt l = some ps ∧ p ∈ ps

/-- Ownership is sound: lists hold live polylines, none is held twice (in one list or in two). -/
structure Heap.Owned (h : Heap T) : Prop where
  live : ∀ l ps p, h.listAt l = some ps → p ∈ ps → ∃ x, h.plineAt p = some x
  nodup : ∀ l ps, h.listAt l = some ps → ps.Nodup
  disjoint : ∀ l₁ l₂ ps₁ ps₂ p, h.listAt l₁ = some ps₁ → h.listAt l₂ = some ps₂ → p ∈ ps₁ → p ∈ ps₂ → l₁ = l₂

/-- The caller's duty: `cavc_pline_f` is not called on a polyline that a list still owns. -/
def Call.Dutiful (h : Heap T) (c : Call T) : Prop := ∀ p, c = .free p → ¬ h.Owns p

end Cavc
