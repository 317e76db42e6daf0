import Verif.Spec.View
import Verif.Spec.Curve

/-! # Specification: tracing a part of a polyline -/

namespace Cavc

/-- The curve of the segment that starts at a cyclic position. -/
noncomputable def curveAt (src : Pline ℝ) (i : Nat) (t : ℝ) : V2 ℝ :=
  match cycAt src i, cycAt src (i + 1) with
  | some v, some w => segCurve v w t
  | _, _ => ⟨0, 0⟩

/-- The segments of `q` run, one for one and at proportional speed, along the part of `src` that begins after
the fraction `t` of the segment at position `s` and ends after the fraction `u` of the segment `k` positions
further. -/
structure TracesPart (src q : Pline ℝ) (s k : Nat) (t u : ℝ) : Prop where
  count : q.segs.length = k + 1
  along : ∀ j a b, q.segs[j]? = some (a, b) → ∀ x,
    segCurve a b x = curveAt src (s + j) ((if j = 0 then t else 0) + ((if j = k then u else 1) - if j = 0 then t else 0) * x)

/-- The segment from `v` to `w` is a line or an arc of at most half a circle, and its ends are not within `eps`. -/
structure FullSeg (v w : Vertex ℝ) (eps : ℝ) : Prop where
  shape : IsLine v ∨ (¬ IsLine v ∧ |v.bulge| ≤ 1)
  apart : v.pos.fuzzyEqEps w.pos eps = false

/-- The part of that segment between two fractions is a line, or an arc whose bulge the code does not take for 0. -/
def LongPart (v : Vertex ℝ) (t u : ℝ) : Prop := IsLine v ∨ 1 / 100000000 ≤ |Real.tan ((u - t) * Real.arctan v.bulge)|

/-- A cut after the fraction `t`: at an end of the segment, or further than `eps` from both ends. -/
def CleanCut (v w : Vertex ℝ) (t eps : ℝ) : Prop :=
  t = 0 ∨ t = 1 ∨ (0 < t ∧ t < 1 ∧ (segCurve v w t).fuzzyEqEps v.pos eps = false ∧ (segCurve v w t).fuzzyEqEps w.pos eps = false)

end Cavc
