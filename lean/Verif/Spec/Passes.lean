import Verif.Spec.ShapeTwice

/-! # Specification: passes, the loop of a caller that offsets its last results again -/

namespace Cavc
open Pline

/-- Each polyline of a list is offset by `d`; the results in one list. -/
def offsetEach {T : Type} [Scalar T] (env : Env T) (o : OffsetOptions T) (d : T) : List (Pline T) → M (List (Pline T))
  | [] => .ok []
  | p :: ps => do
    let rs ← parallelOffset env p d o
    let ts ← offsetEach env o d ps
    .ok (rs ++ ts)

/-- The polylines after passes with the distances of a list, each made from the results of the one before. -/
def makePasses {T : Type} [Scalar T] (env : Env T) (o : OffsetOptions T) : List (Pline T) → List T → M (List (Pline T))
  | ps, [] => .ok ps
  | ps, d :: ds => do
    let rs ← offsetEach env o d ps
    makePasses env o rs ds

/-- Every call of the passes is clear of the tolerances. -/
def ClearPasses (env : Env ℝ) (o : OffsetOptions ℝ) : List (Pline ℝ) → List ℝ → Prop
  | _, [] => True
  | ps, d :: ds => (∀ p ∈ ps, ClearlyOffset p d o.posEqualEps o.sliceJoinEps o.offsetDistEps) ∧ ∀ rs, offsetEach env o d ps = .ok rs → ClearPasses env o rs ds

/-- The same for shapes. -/
def shapePasses {T : Type} [Scalar T] (env : Env T) (o : ShapeOffsetOptions T) : Shape T → List T → M (Shape T)
  | s, [] => .ok s
  | s, d :: ds => do
    let s' ← s.parallelOffset env d o
    shapePasses env o s' ds

/-- Every call of the passes of a shape is clear of the tolerances. -/
def ClearShapePasses (env : Env ℝ) (o : ShapeOffsetOptions ℝ) : Shape ℝ → List ℝ → Prop
  | _, [] => True
  | s, d :: ds => ClearShape env s d o ∧ ∀ s', s.parallelOffset env d o = .ok s' → ClearShapePasses env o s' ds

end Cavc
