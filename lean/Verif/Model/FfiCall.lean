import Verif.Model.Ffi

/-!
# Histories of calls of the C interface

One constructor per exported function of `cavalier_contours_ffi/src/lib.rs:232-1330` that works on
polylines, lists of polylines or spatial indexes, and the execution of a history of calls.  The
`void` free functions return code 0 here.
-/

namespace Cavc

/-- A call of an exported function with its arguments. -/
inductive Call (T : Type) where
  | create (vertexes : Option (List (Vertex T))) (n isClosed : Nat)
  | free (p : Ptr)
  | reserve (p : Ptr) (additional : Nat)
  | clone (p : Ptr)
  | getIsClosed (p : Ptr)
  | setIsClosed (p : Ptr) (isClosed : Nat)
  | getVertexCount (p : Ptr)
  | getVertexData (p : Ptr) (cap : Nat)
  | setVertexData (p : Ptr) (data : Option (List (Vertex T))) (n : Nat)
  | clear (p : Ptr)
  | add (p : Ptr) (x y bulge : T)
  | getVertex (p : Ptr) (position : Nat)
  | setVertex (p : Ptr) (position : Nat) (v : Vertex T)
  | remove (p : Ptr) (position : Nat)
  | evalPathLength (p : Ptr)
  | evalArea (p : Ptr)
  | evalWn (p : Ptr) (x y : T)
  | invertDirection (p : Ptr)
  | scale (p : Ptr) (s : T)
  | translate (p : Ptr) (x y : T)
  | removeRepeatPos (p : Ptr) (eps : T)
  | removeRedundant (p : Ptr) (eps : T)
  | evalExtents (p : Ptr)
  | parallelOffset (p : Ptr) (offset : T) (opts : OffsetOptions T)
  | boolean (p1 p2 : Ptr) (operation : Nat) (aabbIndex1 : Option (Index T)) (eps : T)
  | createApproxAabbIndex (p : Ptr)
  | createAabbIndex (p : Ptr)
  | aabbIndexFree (i : Ptr)
  | aabbIndexGetExtents (i : Ptr)
  | listFree (l : Ptr)
  | listGetCount (l : Ptr)
  | listGetPline (l : Ptr) (position : Nat)
  | listPop (l : Ptr)
  | listTake (l : Ptr) (position : Nat)

/-- What is written to the out parameters. -/
inductive Out (T : Type) where
  | nat (n : Nat)
  | int (i : Int)
  | scalar (x : T)
  | ptr (p : Ptr)
  | ptrs (p q : Ptr)
  | vertex (v : Vertex T)
  | vertexes (vs : List (Vertex T))
  | box (b : AABB T)
  | boxOrNaN (b : Option (AABB T))

variable {T : Type} [Scalar T]

/-- relabels the out parameter -/
def FfiRes.out {α : Type} (f : α → Out T) (r : FfiRes T α) : FfiRes T (Out T) :=
  r.map fun x => (x.1, x.2.1, x.2.2.map f)

/-- a `void` function -/
def FfiRes.void (r : Option (Heap T)) : FfiRes T (Out T) := r.map fun h => (h, 0, none)

/-- One call. -/
def exec (env : Env T) (h : Heap T) : Call T → FfiRes T (Out T)
  | .create vs n c => (plineCreate h vs n c).out .ptr
  | .free p => FfiRes.void (plineF h p)
  | .reserve p n => (plineReserve h p n).out fun _ => .nat 0
  | .clone p => (plineClone h p).out .ptr
  | .getIsClosed p => (plineGetIsClosed h p).out .nat
  | .setIsClosed p c => (plineSetIsClosed h p c).out fun _ => .nat 0
  | .getVertexCount p => (plineGetVertexCount h p).out .nat
  | .getVertexData p cap => (plineGetVertexData h p cap).out .vertexes
  | .setVertexData p d n => (plineSetVertexData h p d n).out fun _ => .nat 0
  | .clear p => (plineClear h p).out fun _ => .nat 0
  | .add p x y b => (plineAdd h p x y b).out fun _ => .nat 0
  | .getVertex p i => (plineGetVertex h p i).out .vertex
  | .setVertex p i v => (plineSetVertex h p i v).out fun _ => .nat 0
  | .remove p i => (plineRemove h p i).out fun _ => .nat 0
  | .evalPathLength p => (plineEvalPathLength h p).out .scalar
  | .evalArea p => (plineEvalArea h p).out .scalar
  | .evalWn p x y => (plineEvalWn h p x y).out .int
  | .invertDirection p => (plineInvertDirection h p).out fun _ => .nat 0
  | .scale p s => (plineScale h p s).out fun _ => .nat 0
  | .translate p x y => (plineTranslate h p x y).out fun _ => .nat 0
  | .removeRepeatPos p eps => (plineRemoveRepeatPos h p eps).out fun _ => .nat 0
  | .removeRedundant p eps => (plineRemoveRedundant h p eps).out fun _ => .nat 0
  | .evalExtents p => (plineEvalExtents h p).out .box
  | .parallelOffset p d o => (plineParallelOffset env h p d o).out .ptr
  | .boolean p q op i eps => (plineBoolean env h p q op i eps).out fun r => .ptrs r.1 r.2
  | .createApproxAabbIndex p => (plineCreateApproxAabbIndex h p).out .ptr
  | .createAabbIndex p => (plineCreateAabbIndex h p).out .ptr
  | .aabbIndexFree i => FfiRes.void (aabbIndexF h i)
  | .aabbIndexGetExtents i => (aabbIndexGetExtents h i).out .boxOrNaN
  | .listFree l => FfiRes.void (plinelistF h l)
  | .listGetCount l => (plinelistGetCount h l).out .nat
  | .listGetPline l i => (plinelistGetPline h l i).out .ptr
  | .listPop l => (plinelistPop h l).out .ptr
  | .listTake l i => (plinelistTake h l i).out .ptr

/-- A history of calls, from left to right. -/
def execAll (env : Env T) : Heap T → List (Call T) → Option (Heap T)
  | h, [] => some h
  | h, c :: cs => match exec env h c with
    | none => none
    | some r => execAll env r.1 cs

/-- The heap before any call. -/
def Heap.empty : Heap T := ⟨fun _ => none, 1⟩

end Cavc
