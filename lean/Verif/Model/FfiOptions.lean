import Verif.Model.FfiCall

/-!
# Options

Default options (`polyline/pline_types.rs`, `shape_algorithms/mod.rs`, relative to
`cavalier_contours/src`), the functions that use them, and the option structs of the C interface
(`cavalier_contours_ffi/src/lib.rs`).
-/

namespace Cavc
open Scalar
variable {T : Type} [Scalar T]

/-- `PlineOffsetOptions::new` and `default`, `polyline/pline_types.rs:68-92`. -/
def OffsetOptions.default : OffsetOptions T where
  aabbIndex := none
  handleSelfIntersects := false
  posEqualEps := ofRatio 1 100000
  sliceJoinEps := ofRatio 1 10000
  offsetDistEps := ofRatio 1 10000

/-- `PlineBooleanOptions`, `polyline/pline_types.rs:213-224`. -/
structure BooleanOptions (T : Type) where
  aabbIndex1 : Option (Index T)
  posEqualEps : T

/-- `PlineBooleanOptions::new` and `default`, `polyline/pline_types.rs:226-247`. -/
def BooleanOptions.default : BooleanOptions T where
  aabbIndex1 := none
  posEqualEps := ofRatio 1 100000

/-- `ShapeOffsetOptions::new` and `default`, `shape_algorithms/mod.rs:98-120`. -/
def ShapeOffsetOptions.default : ShapeOffsetOptions T where
  posEqualEps := ofRatio 1 100000
  offsetDistEps := ofRatio 1 10000
  sliceJoinEps := ofRatio 1 10000

/-- `FindIntersectsOptions::default` is the pair of no index and this epsilon,
`polyline/pline_types.rs:310-332`. -/
def findIntersectsDefaultEps : T := ofRatio 1 100000

/-- `PlineSelfIntersectOptions::default` is no index, this epsilon and `All`,
`polyline/pline_types.rs:276-298`. -/
def selfIntersectDefaultEps : T := ofRatio 1 100000

/-- `parallel_offset`, `polyline/traits.rs:1370-1372`. -/
def Pline.parallelOffset (env : Env T) (p : Pline T) (offset : T) : M (List (Pline T)) :=
  Cavc.parallelOffset env p offset .default

/-- `boolean`, `polyline/traits.rs:1443-1448`. -/
def Pline.boolean (env : Env T) (p q : Pline T) (op : BooleanOp) : M (BooleanResult T) :=
  polylineBoolean env p q op (BooleanOptions.default (T := T)).aabbIndex1 BooleanOptions.default.posEqualEps

/-- `find_intersects`, `polyline/traits.rs:1323-1328`. -/
def Pline.findIntersects (env : Env T) (p q : Pline T) : M (IntrCollection T) :=
  Cavc.findIntersects env p q none findIntersectsDefaultEps

/-- `visit_self_intersects`, `polyline/traits.rs:1263-1269`. -/
def Pline.visitSelfIntersects {S C : Type} [ControlFlow C] (p : Pline T) (env : Env T) (vis : Visitor T S C) (s : S) :
    M (S × C) :=
  p.visitSelfIntersectsOpt env vis s none selfIntersectDefaultEps .all

/-! ## C interface -/

/-- `cavc_pline_parallel_offset_o`, `cavalier_contours_ffi/src/lib.rs:77-85`; the flag is a byte. -/
structure COffsetOptions (T : Type) where
  aabbIndex : Ptr
  posEqualEps : T
  sliceJoinEps : T
  offsetDistEps : T
  handleSelfIntersects : Nat

/-- Reading an index pointer, `aabb_index.as_ref().map(|w| &w.0)`: null is no index; the outer `none` is
undefined behaviour.  An index is the one built from its boxes. -/
def readIndex (env : Env T) (h : Heap T) (p : Ptr) : Option (Option (Index T)) :=
  if p = 0 then some none
  else match h.cells p with
    | some (.aabbindex boxes) => some (some (env.build boxes))
    | _ => none

/-- `to_internal`, `cavalier_contours_ffi/src/lib.rs:93-102`. -/
def COffsetOptions.toInternal (env : Env T) (h : Heap T) (o : COffsetOptions T) : Option (OffsetOptions T) :=
  (readIndex env h o.aabbIndex).map fun idx =>
    ⟨idx, o.handleSelfIntersects != 0, o.posEqualEps, o.sliceJoinEps, o.offsetDistEps⟩

/-- `Default for cavc_pline_parallel_offset_o`, `cavalier_contours_ffi/src/lib.rs:105-116`. -/
def COffsetOptions.default : COffsetOptions T :=
  let d : OffsetOptions T := .default
  ⟨0, d.posEqualEps, d.sliceJoinEps, d.offsetDistEps, if d.handleSelfIntersects then 1 else 0⟩

/-- `cavc_pline_parallel_offset_o_init`, `cavalier_contours_ffi/src/lib.rs:126-141`: the code returned and
the struct written to the place `options` points to, `none` if not written. -/
def offsetOptionsInit (optionsIsNull : Bool) : Int × Option (COffsetOptions T) :=
  if optionsIsNull then (1, none) else (0, some .default)

/-- `cavc_pline_boolean_o`, `cavalier_contours_ffi/src/lib.rs:143-148`. -/
structure CBooleanOptions (T : Type) where
  aabbIndex1 : Ptr
  posEqualEps : T

/-- `to_internal`, `cavalier_contours_ffi/src/lib.rs:157-163`. -/
def CBooleanOptions.toInternal (env : Env T) (h : Heap T) (o : CBooleanOptions T) : Option (BooleanOptions T) :=
  (readIndex env h o.aabbIndex1).map fun idx => ⟨idx, o.posEqualEps⟩

/-- `Default for cavc_pline_boolean_o`, `cavalier_contours_ffi/src/lib.rs:166-174`. -/
def CBooleanOptions.default : CBooleanOptions T :=
  let d : BooleanOptions T := .default
  ⟨0, d.posEqualEps⟩

/-- `cavc_pline_boolean_o_init`, `cavalier_contours_ffi/src/lib.rs:184-197`. -/
def booleanOptionsInit (optionsIsNull : Bool) : Int × Option (CBooleanOptions T) :=
  if optionsIsNull then (1, none) else (0, some .default)

/-- `cavc_pline_parallel_offset`, `cavalier_contours_ffi/src/lib.rs:952-977`, with its option pointer
(`none`: null). -/
def cParallelOffset (env : Env T) (h : Heap T) (p : Ptr) (offset : T) (options : Option (COffsetOptions T)) :
    FfiRes T Ptr :=
  if p = 0 then some (h, 1, none)
  else match options with
    | none => plineParallelOffset env h p offset .default
    | some o => match o.toInternal env h with
      | none => none
      | some i => plineParallelOffset env h p offset i

/-- `cavc_pline_boolean`, `cavalier_contours_ffi/src/lib.rs:999-1041`, with its option pointer. -/
def cBoolean (env : Env T) (h : Heap T) (p1 p2 : Ptr) (operation : Nat) (options : Option (CBooleanOptions T)) :
    FfiRes T (Ptr × Ptr) :=
  if p1 = 0 ∨ p2 = 0 then some (h, 1, none)
  else if booleanOpFromU32 operation = none then some (h, 2, none)
  else match options with
    | none => plineBoolean env h p1 p2 operation (BooleanOptions.default (T := T)).aabbIndex1 BooleanOptions.default.posEqualEps
    | some o => match o.toInternal env h with
      | none => none
      | some i => plineBoolean env h p1 p2 operation i.aabbIndex1 i.posEqualEps

end Cavc
