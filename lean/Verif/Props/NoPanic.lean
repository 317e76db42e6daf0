import Verif.Props.Indexing
import Verif.Props.Redundant
import Verif.Props.Rotate
import Verif.Props.Ffi
import Verif.Props.Invert
import Verif.Props.Transform
import Verif.Props.Shape

/-! # C50: no panics on degenerate input

Over any number type, so also for inputs with NaN or infinite coordinates. -/

set_option linter.unusedSectionVars false
set_option linter.unusedVariables false

namespace Cavc
open Scalar Pline
variable {T : Type} [Scalar T]

theorem closest_fold_total (p : Pline T) (pt : V2 T) (eps : T) : ∀ (l : List (Nat × Nat)) (st : ClosestState T),
    (∀ ij ∈ l, ij.1 < p.verts.length ∧ ij.2 < p.verts.length) → ∃ st', l.foldlM (closestStep p pt eps) st = .ok st'
  | [], st, _ => ⟨st, rfl⟩
  | ij :: l, st, h => by
    obtain ⟨h1, h2⟩ := h ij (by simp)
    have hstep : ∃ st1, closestStep p pt eps st ij = .ok st1 := by
      unfold closestStep
      simp only [at_lt h1, at_lt h2, bind, Except.bind]
      repeat' split
      all_goals exact ⟨_, rfl⟩
    obtain ⟨st1, e⟩ := hstep
    obtain ⟨st', e'⟩ := closest_fold_total p pt eps l st1 (fun x hx => h x (by simp [hx]))
    refine ⟨st', ?_⟩
    rw [List.foldlM_cons, e]
    exact e'

/-- `closest_point` returns for every polyline, and gives nothing exactly for the empty one. -/
theorem closestPoint_total (p : Pline T) (pt : V2 T) (eps : T) :
    ∃ r, p.closestPoint pt eps = .ok r ∧ (r = none ↔ p.verts = []) := by
  unfold closestPoint isEmpty vertexCount
  by_cases h0 : p.verts = []
  · rw [if_pos (by simp [h0])]
    exact ⟨none, rfl, by simp [h0]⟩
  · have hpos := List.length_pos_iff.mpr h0
    rw [if_neg (by simp [h0])]
    simp only [at_lt hpos, bind, Except.bind]
    by_cases h1 : p.verts.length = 1
    · rw [if_pos h1]
      exact ⟨_, rfl, by simp [h0]⟩
    · rw [if_neg h1]
      obtain ⟨st, e⟩ := closest_fold_total p pt eps p.segIndexes ⟨0, p.verts[0].pos, none⟩ (C01_iter_segment_indexes p).2.2
      rw [e]
      exact ⟨_, rfl, by simp [h0]⟩

theorem arcsToApproxLines_total (p : Pline T) (err : T) : ∃ r, p.arcsToApproxLines err = .ok r := by
  unfold arcsToApproxLines isEmpty vertexCount
  by_cases h0 : p.verts = []
  · rw [if_pos (by simp [h0])]
    exact ⟨_, rfl⟩
  · rw [if_neg (by simp [h0])]
    cases p.segs.mapM (approxLinesOfSeg err) with
    | none => exact ⟨_, rfl⟩
    | some ls =>
      simp only
      split
      · obtain ⟨l, hl, -⟩ := last_ok p h0
        rw [hl]
        exact ⟨_, rfl⟩
      · exact ⟨_, rfl⟩

theorem findPoint_total (p : Pline T) (x : T) :
    (∃ r, p.findPointAtPathLength x = .ok r) ↔ p.verts ≠ [] ∨ le x 0 = false := by
  unfold findPointAtPathLength
  cases hx : le x 0 with
  | false => simp
  | true =>
    by_cases h0 : p.verts = []
    · simp [h0, Pline.at, bind, Except.bind]
    · have hpos := List.length_pos_iff.mpr h0
      simp [at_lt hpos, bind, Except.bind, h0]

/-- **C50** Every polyline, also an empty one or one with a single vertex, and every argument, of any
number type: these functions return without panicking.  Reading all segments (with which `area`,
`path_length`, `orientation` and `winding_number` are computed) gives the list of segments.
`find_point_at_path_length` panics exactly for an empty polyline and a length that is not positive.
What is missing: `remove_redundant` of closed polylines can panic, see `C11_panic_witness`. -/
theorem C50_total_partial (p : Pline T) (x y eps : T) (i : Nat) (pt : V2 T) (env : Env T) (henv : env.Lawful) :
    (∃ r, p.extents = .ok r ∧ (r = none ↔ p.verts.length < 2)) ∧
    (SegIter.collect p (p.segmentCount + 1) (SegIter.new p) = .ok (some p.segs)) ∧
    (∃ r, p.closestPoint pt eps = .ok r ∧ (r = none ↔ p.verts = [])) ∧
    (∃ r, p.removeRepeatPos eps = .ok r) ∧
    (p.closed = false → ∃ r, p.removeRedundant eps = .ok r) ∧
    (∃ r, p.rotateStart i pt eps = .ok r) ∧
    (∃ r, p.arcsToApproxLines x = .ok r) ∧
    ((∃ r, p.findPointAtPathLength x = .ok r) ↔ p.verts ≠ [] ∨ le x 0 = false) ∧
    (∃ r, p.invertDirectionMut = .ok r) ∧
    (∃ r, p.scaleMut x = .ok r) ∧
    (∃ r, p.translateMut x y = .ok r) ∧
    (∀ o : OffsetOptions T, o.aabbIndex = none → ∃ rs, parallelOffset env p x o = .ok rs) ∧
    (∀ q : Pline T, ∃ r, findIntersects env p q none eps = .ok r) ∧
    (∃ r, Shape.fromPlines env [p] = .ok r) := by
  refine ⟨extents_total p, ?_, closestPoint_total p pt eps, removeRepeatPos_total p eps, ?_, ?_, arcsToApproxLines_total p x, findPoint_total p x, ?_, ?_, ?_, ?_, ?_, ?_⟩
  · obtain ⟨-, items, h, e, -⟩ := C01_iter_segments p
    rw [← e]
    exact h _ (Nat.lt_succ_self _)
  · intro hc
    rcases C11_shape_partial p eps with ⟨r, h, -⟩ | ⟨h, -⟩
    · exact ⟨r, h⟩
    · rw [hc] at h; simp at h
  · obtain ⟨r, h, -⟩ := C12_none p i pt eps
    exact ⟨r, h⟩
  · obtain ⟨r, h, -⟩ := C03_invert_path p
    exact ⟨r, h⟩
  · exact ⟨_, C06_scale_vertexes p x⟩
  · exact ⟨_, C06_translate_vertexes p x y⟩
  · intro o ho
    obtain ⟨rs, h, -⟩ := C43_parallel_offset env henv p x o (by rw [ho]; simp)
    exact ⟨rs, h⟩
  · intro q
    obtain ⟨r, h, -⟩ := C37_result env p q none eps (C37_own_index env henv p)
    exact ⟨r, h⟩
  · obtain ⟨s, h, -⟩ := C45_from_plines env henv [p]
    exact ⟨s, h⟩

/-- **C50** (finding) `last` of an empty polyline subtracts one from zero: a panic in a debug build. -/
theorem C50_last_witness (c : Bool) : (⟨[], c⟩ : Pline T).lastDebug = .error .underflow := rfl

/-- **C50** (finding) `find_point_at_path_length` panics for an empty polyline and a length of zero. -/
theorem C50_find_point_witness : (⟨[], false⟩ : Pline Rat).findPointAtPathLength 0 = .error .indexOutOfBounds := by decide +kernel

/-- non-vacuity: the environment the theorem speaks about exists -/
example : (Env.plain : Env Rat).Lawful := Env.plain_lawful

/-- degenerate polylines: empty, one vertex, all vertexes equal -/
example : (parallelOffset Env.plain ⟨[], true⟩ (1 : Rat) ⟨none, true, 1/100000, 1/10000, 1/10000⟩ = .ok []) ∧
    (parallelOffset Env.plain ⟨[⟨1, 1, 1⟩], true⟩ (1 : Rat) ⟨none, true, 1/100000, 1/10000, 1/10000⟩ = .ok []) := by
  constructor <;> decide +kernel

end Cavc
