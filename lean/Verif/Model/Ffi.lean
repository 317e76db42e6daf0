import Verif.Model.Shape

/-!
# C interface

Models `cavalier_contours_ffi/src/lib.rs` (paths relative to `/repo`).

Objects live in a heap of cells addressed by positive numbers; `0` is the null pointer.  Addresses
are handed out once only (a bump allocator; the real allocator may reuse freed addresses).  Reading,
writing or freeing an address that does not hold a live object of the right kind is undefined
behaviour (`none`).  Out parameters are modelled by the returned `Option`: `none` means "not
written".  Buffers passed by the caller are lists.  The C interface is for `f64`; the model is
generic in the scalar.  `cavc_pline_reserve`, which has no observable effect, is modelled as a
no-op.
-/

namespace Cavc
open Scalar

/-- A raw pointer; `0` is null. -/
abbrev Ptr := Nat

/-- Heap objects: `cavc_pline` (`cavalier_contours_ffi/src/lib.rs:75`), `cavc_plinelist` (`217`),
`cavc_aabbindex` (`30`, represented by the boxes it was built from). -/
inductive Obj (T : Type) where
  | pline (p : Pline T)
  | plinelist (ps : List Ptr)
  | aabbindex (boxes : List (AABB T))

/-- The heap: live cells and the next fresh address. -/
structure Heap (T : Type) where
  cells : Ptr → Option (Obj T)
  next : Ptr

/-- Result of a C call: `none` is undefined behaviour; otherwise the heap, the returned code and the
value written to the out parameter (if written). -/
abbrev FfiRes (T α : Type) := Option (Heap T × Int × Option α)

variable {T : Type} [Scalar T]

/-- `Box::into_raw(Box::new(..))`. -/
def Heap.alloc (h : Heap T) (o : Obj T) : Ptr × Heap T :=
  (h.next, ⟨fun a => if a = h.next then some o else h.cells a, h.next + 1⟩)

/-- Overwriting the object at an address. -/
def Heap.set (h : Heap T) (a : Ptr) (o : Obj T) : Heap T :=
  ⟨fun b => if b = a then some o else h.cells b, h.next⟩

/-- `drop(Box::from_raw(..))` of one object. -/
def Heap.free (h : Heap T) (a : Ptr) : Heap T :=
  ⟨fun b => if b = a then none else h.cells b, h.next⟩

/-- The code before the body: null check with code 1, then dereference as polyline. -/
def withPline {α : Type} (h : Heap T) (p : Ptr) (f : Pline T → FfiRes T α) : FfiRes T α :=
  if p = 0 then some (h, 1, none)
  else match h.cells p with
    | some (.pline pl) => f pl
    | _ => none

/-- Null check with code 1, then dereference as list of polylines. -/
def withList {α : Type} (h : Heap T) (p : Ptr) (f : List Ptr → FfiRes T α) : FfiRes T α :=
  if p = 0 then some (h, 1, none)
  else match h.cells p with
    | some (.plinelist ps) => f ps
    | _ => none

/-- `ffi_catch_unwind!`, `cavalier_contours_ffi/src/lib.rs:16-23`: a panic becomes code −1. -/
def catchUnwind {α β : Type} (h : Heap T) (m : M β) (k : β → FfiRes T α) : FfiRes T α :=
  match m with
  | .error _ => some (h, -1, none)
  | .ok b => k b

/-- `u32::MAX + 1`. -/
def u32Size : Nat := 2 ^ 32

/-- `x as u32`. -/
def asU32 (n : Nat) : Nat := n % u32Size

/-- `u32::try_from(x).unwrap()`. -/
def tryU32 (n : Nat) : M Nat := if n < u32Size then .ok n else .error .unwrapNone

/-- `boolean_op_from_u32`, `cavalier_contours_ffi/src/lib.rs:199-211`. -/
def booleanOpFromU32 (i : Nat) : Option BooleanOp :=
  if i = 0 then some .or
  else if i = 1 then some .and
  else if i = 2 then some .not
  else if i = 3 then some .xor
  else none

/-- `slice::from_raw_parts(buf, n)`: undefined behaviour for a null pointer or a short buffer. -/
def rawParts {α : Type} (buf : Option (List α)) (n : Nat) : Option (List α) :=
  match buf with
  | none => none
  | some l => if n ≤ l.length then some (l.take n) else none

/-- `cavc_plinelist::from_internal`, `cavalier_contours_ffi/src/lib.rs:220-230`. -/
def listFromInternal (h : Heap T) (ps : List (Pline T)) : Ptr × Heap T :=
  let r := ps.foldl (fun (acc : List Ptr × Heap T) p =>
    let a := acc.2.alloc (.pline p)
    (acc.1 ++ [a.1], a.2)) ([], h)
  r.2.alloc (.plinelist r.1)

/-- `cavc_pline_create`, `cavalier_contours_ffi/src/lib.rs:248-273`. -/
def plineCreate (h : Heap T) (vertexes : Option (List (Vertex T))) (n : Nat) (isClosed : Nat) :
    FfiRes T Ptr :=
  let closed := isClosed != 0
  if vertexes.isSome && n != 0 then
    match rawParts vertexes n with
    | none => none
    | some data =>
      let r := h.alloc (.pline ((⟨[], closed⟩ : Pline T).extendVertexes data))
      some (r.2, 0, some r.1)
  else
    let r := h.alloc (.pline ⟨[], closed⟩)
    some (r.2, 0, some r.1)

/-- `cavc_pline_f`, `cavalier_contours_ffi/src/lib.rs:284-290`. -/
def plineF (h : Heap T) (p : Ptr) : Option (Heap T) :=
  if p = 0 then some h
  else match h.cells p with
    | some (.pline _) => some (h.free p)
    | _ => none

/-- `cavc_pline_reserve`, `cavalier_contours_ffi/src/lib.rs:305-316`. -/
def plineReserve (h : Heap T) (p : Ptr) (_additional : Nat) : FfiRes T Unit :=
  withPline h p fun _ => some (h, 0, none)

/-- `cavc_pline_clone`, `cavalier_contours_ffi/src/lib.rs:333-347`. -/
def plineClone (h : Heap T) (p : Ptr) : FfiRes T Ptr :=
  withPline h p fun pl =>
    let r := h.alloc (.pline pl)
    some (r.2, 0, some r.1)

/-- `cavc_pline_get_is_closed`, `cavalier_contours_ffi/src/lib.rs:364-377`. -/
def plineGetIsClosed (h : Heap T) (p : Ptr) : FfiRes T Nat :=
  withPline h p fun pl => some (h, 0, some (if pl.closed then 1 else 0))

/-- `cavc_pline_set_is_closed`, `cavalier_contours_ffi/src/lib.rs:392-402`. -/
def plineSetIsClosed (h : Heap T) (p : Ptr) (isClosed : Nat) : FfiRes T Unit :=
  withPline h p fun pl => some (h.set p (.pline (pl.setIsClosed (isClosed != 0))), 0, none)

/-- `cavc_pline_get_vertex_count`, `cavalier_contours_ffi/src/lib.rs:418-434`. -/
def plineGetVertexCount (h : Heap T) (p : Ptr) : FfiRes T Nat :=
  withPline h p fun pl => catchUnwind h (tryU32 pl.vertexCount) fun n => some (h, 0, some n)

/-- `cavc_pline_get_vertex_data`, `cavalier_contours_ffi/src/lib.rs:454-469`; `cap` is the size of
the caller's buffer. -/
def plineGetVertexData (h : Heap T) (p : Ptr) (cap : Nat) : FfiRes T (List (Vertex T)) :=
  withPline h p fun pl => if pl.vertexCount ≤ cap then some (h, 0, some pl.verts) else none

/-- `cavc_pline_set_vertex_data`, `cavalier_contours_ffi/src/lib.rs:487-508`. -/
def plineSetVertexData (h : Heap T) (p : Ptr) (data : Option (List (Vertex T))) (n : Nat) :
    FfiRes T Unit :=
  withPline h p fun pl =>
    match rawParts data n with
    | none => none
    | some vs => some (h.set p (.pline (pl.clear.extendVertexes vs)), 0, none)

/-- `cavc_pline_clear`, `cavalier_contours_ffi/src/lib.rs:521-532`. -/
def plineClear (h : Heap T) (p : Ptr) : FfiRes T Unit :=
  withPline h p fun pl => some (h.set p (.pline pl.clear), 0, none)

/-- `cavc_pline_add`, `cavalier_contours_ffi/src/lib.rs:545-556`. -/
def plineAdd (h : Heap T) (p : Ptr) (x y bulge : T) : FfiRes T Unit :=
  withPline h p fun pl => some (h.set p (.pline (pl.addVertex ⟨x, y, bulge⟩)), 0, none)

/-- `cavc_pline_get_vertex`, `cavalier_contours_ffi/src/lib.rs:574-595`. -/
def plineGetVertex (h : Heap T) (p : Ptr) (position : Nat) : FfiRes T (Vertex T) :=
  withPline h p fun pl =>
    if position ≥ asU32 pl.vertexCount then some (h, 2, none)
    else catchUnwind h (pl.at position) fun v => some (h, 0, some v)

/-- `cavc_pline_set_vertex`, `cavalier_contours_ffi/src/lib.rs:612-632`. -/
def plineSetVertex (h : Heap T) (p : Ptr) (position : Nat) (v : Vertex T) : FfiRes T Unit :=
  withPline h p fun pl =>
    if position ≥ asU32 pl.vertexCount then some (h, 2, none)
    else catchUnwind h (pl.setVertex position v) fun pl' => some (h.set p (.pline pl'), 0, none)

/-- `cavc_pline_remove`, `cavalier_contours_ffi/src/lib.rs:648-664`. -/
def plineRemove (h : Heap T) (p : Ptr) (position : Nat) : FfiRes T Unit :=
  withPline h p fun pl =>
    if position ≥ pl.vertexCount then some (h, 2, none)
    else catchUnwind h (pl.remove position) fun r => some (h.set p (.pline r.2), 0, none)

/-- `cavc_pline_eval_path_length`, `cavalier_contours_ffi/src/lib.rs:680-693`. -/
def plineEvalPathLength (h : Heap T) (p : Ptr) : FfiRes T T :=
  withPline h p fun pl => some (h, 0, some pl.pathLength)

/-- `cavc_pline_eval_area`, `cavalier_contours_ffi/src/lib.rs:709-719`. -/
def plineEvalArea (h : Heap T) (p : Ptr) : FfiRes T T :=
  withPline h p fun pl => some (h, 0, some pl.area)

/-- `cavc_pline_eval_wn`, `cavalier_contours_ffi/src/lib.rs:735-750`. -/
def plineEvalWn (h : Heap T) (p : Ptr) (x y : T) : FfiRes T Int :=
  withPline h p fun pl => some (h, 0, some (pl.windingNumber ⟨x, y⟩))

/-- `cavc_pline_invert_direction`, `cavalier_contours_ffi/src/lib.rs:763-773`. -/
def plineInvertDirection (h : Heap T) (p : Ptr) : FfiRes T Unit :=
  withPline h p fun pl => catchUnwind h pl.invertDirectionMut fun pl' =>
    some (h.set p (.pline pl'), 0, none)

/-- `cavc_pline_scale`, `cavalier_contours_ffi/src/lib.rs:786-796`. -/
def plineScale (h : Heap T) (p : Ptr) (s : T) : FfiRes T Unit :=
  withPline h p fun pl => catchUnwind h (pl.scaleMut s) fun pl' =>
    some (h.set p (.pline pl'), 0, none)

/-- `cavc_pline_translate`, `cavalier_contours_ffi/src/lib.rs:809-823`. -/
def plineTranslate (h : Heap T) (p : Ptr) (x y : T) : FfiRes T Unit :=
  withPline h p fun pl => catchUnwind h (pl.translateMut x y) fun pl' =>
    some (h.set p (.pline pl'), 0, none)

/-- `cavc_pline_remove_repeat_pos`, `cavalier_contours_ffi/src/lib.rs:836-859`. -/
def plineRemoveRepeatPos (h : Heap T) (p : Ptr) (eps : T) : FfiRes T Unit :=
  withPline h p fun pl => catchUnwind h (pl.removeRepeatPos eps) fun r =>
    match r with
    | none => some (h, 0, none)
    | some pl' => some (h.set p (.pline pl'), 0, none)

/-- `cavc_pline_remove_redundant`, `cavalier_contours_ffi/src/lib.rs:872-895`. -/
def plineRemoveRedundant (h : Heap T) (p : Ptr) (eps : T) : FfiRes T Unit :=
  withPline h p fun pl => catchUnwind h (pl.removeRedundant eps) fun r =>
    match r with
    | none => some (h, 0, none)
    | some pl' => some (h.set p (.pline pl'), 0, none)

/-- `cavc_pline_eval_extents`, `cavalier_contours_ffi/src/lib.rs:910-936`. -/
def plineEvalExtents (h : Heap T) (p : Ptr) : FfiRes T (AABB T) :=
  withPline h p fun pl => catchUnwind h pl.extents fun r =>
    match r with
    | some b => some (h, 0, some b)
    | none => some (h, 2, none)

/-- `cavc_pline_parallel_offset`, `cavalier_contours_ffi/src/lib.rs:952-978`; `opts` are the internal
options (given or default). -/
def plineParallelOffset (env : Env T) (h : Heap T) (p : Ptr) (offset : T) (opts : OffsetOptions T) :
    FfiRes T Ptr :=
  withPline h p fun pl => catchUnwind h (parallelOffset env pl offset opts) fun rs =>
    let r := listFromInternal h rs
    some (r.2, 0, some r.1)

/-- `cavc_pline_boolean`, `cavalier_contours_ffi/src/lib.rs:999-1041`. -/
def plineBoolean (env : Env T) (h : Heap T) (p1 p2 : Ptr) (operation : Nat)
    (aabbIndex1 : Option (Index T)) (eps : T) : FfiRes T (Ptr × Ptr) :=
  if p1 = 0 ∨ p2 = 0 then some (h, 1, none)
  else match booleanOpFromU32 operation with
    | none => some (h, 2, none)
    | some op =>
      withPline h p1 fun a => withPline h p2 fun b =>
        catchUnwind h (polylineBoolean env a b op aabbIndex1 eps) fun r =>
          let l1 := listFromInternal h (r.posPlines.map BooleanResultPline.pline)
          let l2 := listFromInternal l1.2 (r.negPlines.map BooleanResultPline.pline)
          some (l2.2, 0, some (l1.1, l2.1))

/-- `cavc_pline_create_approx_aabbindex`, `cavalier_contours_ffi/src/lib.rs:1055-1072`. -/
def plineCreateApproxAabbIndex (h : Heap T) (p : Ptr) : FfiRes T Ptr :=
  withPline h p fun pl =>
    let r := h.alloc (.aabbindex pl.approxAabbBoxes.2)
    some (r.2, 0, some r.1)

/-- `cavc_pline_create_aabbindex`, `cavalier_contours_ffi/src/lib.rs:1086-1103`. -/
def plineCreateAabbIndex (h : Heap T) (p : Ptr) : FfiRes T Ptr :=
  withPline h p fun pl =>
    let r := h.alloc (.aabbindex pl.aabbBoxes.2)
    some (r.2, 0, some r.1)

/-- `cavc_aabbindex_f`, `cavalier_contours_ffi/src/lib.rs:1113-1117`. -/
def aabbIndexF (h : Heap T) (p : Ptr) : Option (Heap T) :=
  if p = 0 then some h
  else match h.cells p with
    | some (.aabbindex _) => some (h.free p)
    | _ => none

/-- `cavc_aabbindex_get_extents`, `cavalier_contours_ffi/src/lib.rs:1131-1162`; `some none` stands
for the four `NaN`s written for an empty index. -/
def aabbIndexGetExtents (h : Heap T) (p : Ptr) : FfiRes T (Option (AABB T)) :=
  if p = 0 then some (h, 1, none)
  else match h.cells p with
    | some (.aabbindex boxes) => some (h, 0, some (boundsOf boxes))
    | _ => none

/-- `cavc_plinelist_f`, `cavalier_contours_ffi/src/lib.rs:1172-1176`: dropping a
`Vec<*mut cavc_pline>` frees the vector only. -/
def plinelistF (h : Heap T) (l : Ptr) : Option (Heap T) :=
  if l = 0 then some h
  else match h.cells l with
    | some (.plinelist _) => some (h.free l)
    | _ => none

/-- `cavc_plinelist_get_count`, `cavalier_contours_ffi/src/lib.rs:1191-1207`. -/
def plinelistGetCount (h : Heap T) (l : Ptr) : FfiRes T Nat :=
  withList h l fun ps => catchUnwind h (tryU32 ps.length) fun n => some (h, 0, some n)

/-- `cavc_plinelist_get_pline`, `cavalier_contours_ffi/src/lib.rs:1225-1249`. -/
def plinelistGetPline (h : Heap T) (l : Ptr) (position : Nat) : FfiRes T Ptr :=
  withList h l fun ps =>
    match ps[position]? with
    | some p => some (h, 0, some p)
    | none => some (h, 2, none)

/-- `cavc_plinelist_pop`, `cavalier_contours_ffi/src/lib.rs:1266-1287`. -/
def plinelistPop (h : Heap T) (l : Ptr) : FfiRes T Ptr :=
  withList h l fun ps =>
    match ps.getLast? with
    | some p => some (h.set l (.plinelist ps.dropLast), 0, some p)
    | none => some (h, 2, none)

/-- `cavc_plinelist_take`, `cavalier_contours_ffi/src/lib.rs:1304-1327`. -/
def plinelistTake (h : Heap T) (l : Ptr) (position : Nat) : FfiRes T Ptr :=
  withList h l fun ps =>
    if position ≥ ps.length then some (h, 2, none)
    else match ps[position]? with
      | some p => some (h.set l (.plinelist (ps.eraseIdx position)), 0, some p)
      | none => some (h, -1, none)

end Cavc
