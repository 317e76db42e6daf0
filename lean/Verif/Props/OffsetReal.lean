import Verif.Props.Offset
import Verif.Props.Closest
import Verif.Props.FindIntrReal

/-! # C43 over the reals: results of the parallel offset keep the distance -/

set_option linter.unusedSectionVars false

namespace Cavc
open Pline RealScalar

/-- A point that passes the test of the code has at least the offset distance less the tolerance from
every point of the polyline, up to the rounding of the closest point search. -/
theorem C43_clear_distance (p : Pline ℝ) (hp : ∀ s ∈ p.segs, IsLine s.1 ∨ ProperArc s.1 s.2) (offset eps tol : ℝ) (heps : 0 < eps)
    (htol : 0 ≤ tol) (hD : tol ≤ |offset|) (pt : V2 ℝ) (h : PointClear p offset eps tol pt) :
    ∀ s ∈ p.segs, ∀ q, OnSeg s.1 s.2 q →
      (|offset| - tol) ^ 2 < edist pt q ^ 2 + 2 / 100000000 ∨ |offset| - tol < edist pt q + 3 * eps := by
  intro s hs q hq
  have hD' : 0 ≤ |offset| - tol := by linarith
  have hbox := C33_fast_box s.1 s.2 ((hp s hs).imp_right fun h => h.half) q hq
  by_cases hov : (segBox s).overlaps ⟨pt.x - (Scalar.abs offset - tol), pt.y - (Scalar.abs offset - tol),
      pt.x + (Scalar.abs offset - tol), pt.y + (Scalar.abs offset - tol)⟩ = true
  · have hgt := h s hs hov
    have hc : (|offset| - tol) ^ 2 < edist pt (segClosestPoint s.1 s.2 pt eps) ^ 2 := by
      rw [edist_sq]
      simp only [gt_eq, abs_eq, distSquared, decide_eq_true_eq] at hgt
      simp only [V2.dot_eq] at hgt
      have e1 : (segClosestPoint s.1 s.2 pt eps - pt).x = (segClosestPoint s.1 s.2 pt eps).x - pt.x := rfl
      have e2 : (segClosestPoint s.1 s.2 pt eps - pt).y = (segClosestPoint s.1 s.2 pt eps).y - pt.y := rfl
      rw [e1, e2] at hgt
      nlinarith [hgt]
    have hlt : |offset| - tol < edist pt (segClosestPoint s.1 s.2 pt eps) := by
      have := edist_nonneg pt (segClosestPoint s.1 s.2 pt eps)
      nlinarith
    rcases hp s hs with hl | ha
    · left
      have := (C32_line s.1 s.2 hl pt eps).2 q hq
      linarith
    · right
      by_cases hfar : eps ≤ |pt.x - (arcCenter s.1.pos s.2.pos s.1.bulge).x| ∨ eps ≤ |pt.y - (arcCenter s.1.pos s.2.pos s.1.bulge).y|
      · have := (C32_arc_partial s.1 s.2 ha pt eps heps hfar).1 q hq
        linarith
      · push Not at hfar
        have := (C32_arc_center s.1 s.2 ha pt eps hfar.1 hfar.2).2 q hq
        linarith
  · left
    have hne : (|offset| - tol) ^ 2 < edist pt q ^ 2 := by
      rw [edist_sq]
      obtain ⟨h1, h2, h3, h4⟩ := hbox
      by_contra hcon
      push Not at hcon
      apply hov
      have hx : |pt.x - q.x| ≤ |offset| - tol := abs_le_of_sq_le_sq (by nlinarith [sq_nonneg (pt.y - q.y)]) hD'
      have hy : |pt.y - q.y| ≤ |offset| - tol := abs_le_of_sq_le_sq (by nlinarith [sq_nonneg (pt.x - q.x)]) hD'
      rw [abs_le] at hx hy
      simp only [segBox, AABB.overlaps, RealScalar.abs_eq, lt_eq, gt_eq, Bool.not_eq_true', Bool.or_eq_false_iff, decide_eq_false_iff_not, not_lt]
      exact ⟨⟨⟨by linarith, by linarith⟩, by linarith⟩, by linarith⟩
    linarith [show (0:ℝ) ≤ 2 / 100000000 by norm_num]

/-- Every vertex of every result of `parallel_offset` has at least the offset distance less the
tolerance from every point of the input, up to the rounding of the closest point search, unless the raw
offset polyline was not cut at all. -/
theorem C43_distance_partial (env : Env ℝ) (henv : env.Lawful) (p : Pline ℝ) (hp : ∀ s ∈ p.segs, IsLine s.1 ∨ ProperArc s.1 s.2)
    (offset : ℝ) (opts : OffsetOptions ℝ) (heps : 0 < opts.posEqualEps) (htol : 0 ≤ opts.offsetDistEps) (hD : opts.offsetDistEps ≤ |offset|)
    (hidx : ∀ idx, opts.aabbIndex = some idx → idx.Serves p) :
    ∃ rs, parallelOffset env p offset opts = .ok rs ∧
      ((∀ r ∈ rs, ∀ v ∈ r.verts, ∀ s ∈ p.segs, ∀ q, OnSeg s.1 s.2 q →
        (|offset| - opts.offsetDistEps) ^ 2 < edist v.pos q ^ 2 + 2 / 100000000 ∨
          |offset| - opts.offsetDistEps < edist v.pos q + 3 * opts.posEqualEps) ∨
       ∃ raw ss, createRawOffsetPolyline p offset opts.posEqualEps = .ok raw ∧ OffsetOf env p offset opts raw [] ss rs) := by
  obtain ⟨rs, hrs, h⟩ := C43_vertexes_clear_partial env henv p offset opts hidx
  refine ⟨rs, hrs, ?_⟩
  rcases h with h | ⟨raw, v, ss, h1, -, -, h2⟩
  · left
    intro r hr v hv
    exact C43_clear_distance p hp offset _ _ heps htol hD _ (h r hr v hv)
  · exact Or.inr ⟨raw, ss, h1, h2⟩

/-- A right angle of two lines and an arc satisfies the hypotheses. -/
example : ∀ s ∈ (⟨[⟨0, 0, 0⟩, ⟨4, 0, 1⟩, ⟨4, 4, 0⟩], false⟩ : Pline ℝ).segs, IsLine s.1 ∨ ProperArc s.1 s.2 := by
  intro s hs
  have : (⟨[⟨0, 0, 0⟩, ⟨4, 0, 1⟩, ⟨4, 4, 0⟩], false⟩ : Pline ℝ).segs = [(⟨0, 0, 0⟩, ⟨4, 0, 1⟩), (⟨4, 0, 1⟩, ⟨4, 4, 0⟩)] := rfl
  rw [this] at hs
  simp only [List.mem_cons, List.not_mem_nil, or_false] at hs
  rcases hs with rfl | rfl
  · left; norm_num [IsLine]
  · right; exact ⟨by norm_num [IsLine], by norm_num, by simp [Vertex.pos]⟩

end Cavc
