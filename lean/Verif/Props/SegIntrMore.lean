import Verif.Props.ArcOverlap
import Mathlib.Analysis.Real.Pi.Bounds

/-! # C27: remaining cases, examples and witnesses -/

set_option linter.unusedSectionVars false

namespace Cavc
open RealScalar

/-- **C27** (line and arc, in either order) Every reported point that is clear of the sweep tolerance
band of the arc is within `eps` of the line segment and within `2 * eps` of the arc. -/
theorem C27_line_arc (w1 w2 a1 a2 : Vertex ℝ) (eps : ℝ) (heps : 0 < eps) (hw : IsLine w1)
    (hok : LineOk w1.pos w2.pos eps) (ha : ProperArc a1 a2) (pt : V2 ℝ)
    (hpt : pt ∈ (plineSegIntr w1 w2 a1 a2 eps).points ∨ pt ∈ (plineSegIntr a1 a2 w1 w2 eps).points)
    (hclear : SweepClear a1 a2 pt eps) :
    NearSeg w1 w2 pt eps ∧ NearSeg a1 a2 pt (2 * eps) := by
  rcases hpt with h | h
  · unfold plineSegIntr at h
    simp only [bulgeIsZero_true hw, bulgeIsZero_false ha.notLine, Bool.true_and, Bool.false_eq_true, if_false, if_true] at h
    exact lineArc_points _ heps hw hok ha pt h hclear
  · unfold plineSegIntr at h
    simp only [bulgeIsZero_true hw, bulgeIsZero_false ha.notLine, Bool.false_and, Bool.false_eq_true, if_false, if_true] at h
    exact lineArc_points _ heps hw hok ha pt h hclear

/-- **C27** (crossing lines) A common point of two segments that cross at a resolvable angle is
reported, as the only intersect. -/
theorem C27_lines_complete (v1 v2 u1 u2 : Vertex ℝ) (eps : ℝ) (heps : 0 < eps) (hv : IsLine v1) (hu : IsLine u1)
    (hres : eps ≤ |dirCross v1.pos v2.pos u1.pos u2.pos|) (q : V2 ℝ) (h1 : OnSeg v1 v2 q) (h2 : OnSeg u1 u2 q) :
    plineSegIntr v1 v2 u1 u2 eps = .oneIntersect q := by
  obtain ⟨t, ht0, ht1, ht⟩ := h1
  obtain ⟨s, hs0, hs1, hs⟩ := h2
  rw [segCurve_line hv] at ht
  rw [segCurve_line hu] at hs
  have := C24_crossing_complete_partial v1.pos v2.pos u1.pos u2.pos eps heps hres t s ht0 ht1 hs0 hs1 (by rw [← ht, ← hs])
  unfold plineSegIntr
  simp only [bulgeIsZero_true hv, bulgeIsZero_true hu, Bool.and_self, if_true, this]
  rw [pointFromParametric_eq, ← ht]

theorem unit_upper : ProperArc ⟨1, 0, 1⟩ (⟨-1, 0, 0⟩ : Vertex ℝ) := by
  refine ⟨?_, by norm_num, ?_⟩
  · unfold IsLine; norm_num
  · simp [Vertex.pos]; norm_num

theorem unit_lower : ProperArc ⟨7 / 25, -24 / 25, -1 / 2⟩ (⟨-1, 0, 0⟩ : Vertex ℝ) := by
  refine ⟨?_, by norm_num [abs_of_neg], ?_⟩
  · unfold IsLine; norm_num [abs_of_neg]
  · simp [Vertex.pos]

theorem edist_of_sq {p q : V2 ℝ} {d : ℝ} (hd : 0 ≤ d) (h : (p.x - q.x) ^ 2 + (p.y - q.y) ^ 2 = d ^ 2) : edist p q = d := by
  unfold edist; rw [h, Real.sqrt_sq hd]

theorem upper_center : arcCenter (⟨1, 0⟩ : V2 ℝ) ⟨-1, 0⟩ 1 = ⟨0, 0⟩ := by
  unfold arcCenter; norm_num
theorem upper_radius : arcRadius (⟨1, 0⟩ : V2 ℝ) ⟨-1, 0⟩ 1 = 1 := by
  unfold arcRadius
  rw [edist_of_sq (d := 2) (by norm_num) (by norm_num)]; norm_num
theorem lower_center : arcCenter (⟨7 / 25, -24 / 25⟩ : V2 ℝ) ⟨-1, 0⟩ (-1 / 2) = ⟨0, 0⟩ := by
  unfold arcCenter; norm_num
theorem lower_radius : arcRadius (⟨7 / 25, -24 / 25⟩ : V2 ℝ) ⟨-1, 0⟩ (-1 / 2) = 1 := by
  unfold arcRadius
  have : edist (⟨7 / 25, -24 / 25⟩ : V2 ℝ) ⟨-1, 0⟩ = Real.sqrt (64 / 25) := by
    unfold edist; norm_num
  rw [this, show (64 / 25 : ℝ) = (8 / 5) ^ 2 by norm_num, Real.sqrt_sq (by norm_num)]
  norm_num [abs_of_neg]

theorem upper_nonneg {q : V2 ℝ} (h : OnSeg ⟨1, 0, 1⟩ (⟨-1, 0, 0⟩ : Vertex ℝ) q) : 0 ≤ q.y := by
  obtain ⟨t, ht0, ht1, rfl⟩ := h
  rw [segCurve_arc unit_upper.notLine]
  simp only [Vertex.pos, arcPoint, upper_center, rotV, Real.arctan_one]
  have : 0 ≤ Real.sin (t * (4 * (Real.pi / 4))) := by
    apply Real.sin_nonneg_of_nonneg_of_le_pi
    · have := Real.pi_pos; positivity
    · nlinarith [Real.pi_pos]
  simpa using this

/-- **C27** (disagreement) The upper half of the unit circle and an arc below it, run in opposite
directions, touch at `(-1, 0)` only; the reported intersect is the other end of the second arc, at
distance more than `24/25` from the first. -/
theorem C27_wrong_touch_witness :
    plineSegIntr (⟨1, 0, 1⟩ : Vertex ℝ) ⟨-1, 0, 0⟩ ⟨7 / 25, -24 / 25, -1 / 2⟩ ⟨-1, 0, 0⟩ (1 / 100000)
      = .oneIntersect ⟨7 / 25, -24 / 25⟩ ∧
    ∀ q, OnSeg (⟨1, 0, 1⟩ : Vertex ℝ) ⟨-1, 0, 0⟩ q → 24 / 25 ≤ edist q ⟨7 / 25, -24 / 25⟩ := by
  constructor
  · unfold plineSegIntr
    have hbv := bulge_ne_zero unit_upper.notLine
    have hbu := bulge_ne_zero unit_lower.notLine
    simp only [bulgeIsZero_false unit_upper.notLine, bulgeIsZero_false unit_lower.notLine, Bool.and_self, Bool.false_eq_true, if_false,
      segArcRadiusAndCenter_eq _ _ hbv unit_upper.ne, segArcRadiusAndCenter_eq _ _ hbu unit_lower.ne]
    simp only [Vertex.pos, upper_center, upper_radius, lower_center, lower_radius]
    have hres : circleCircleIntr (T := ℝ) 1 ⟨0, 0⟩ 1 ⟨0, 0⟩ (1 / 100000) = .overlapping := by
      unfold circleCircleIntr
      simp [V2.dot_eq]
    rw [hres]
    dsimp only
    have a1 : angle (⟨0, 0⟩ : V2 ℝ) ⟨1, 0⟩ = 0 := by
      rw [angle_eq]
      have : (⟨(1 : ℝ) - 0, 0 - 0⟩ : ℂ) = 1 := by apply Complex.ext <;> simp
      rw [this, Complex.arg_one]
    have a2 : angle (⟨0, 0⟩ : V2 ℝ) ⟨-1, 0⟩ = Real.pi := by
      rw [angle_eq]
      have : (⟨(-1 : ℝ) - 0, 0 - 0⟩ : ℂ) = -1 := by apply Complex.ext <;> simp
      rw [this, Complex.arg_neg_one]
    have n1 : normalizeRadians (0 : ℝ) = 0 := normalizeRadians_self le_rfl (by linarith [Real.pi_pos])
    have n2 : normalizeRadians Real.pi = Real.pi := normalizeRadians_self Real.pi_pos.le (by linarith [Real.pi_pos])
    have hdir : ((⟨1, 0, 1⟩ : Vertex ℝ).bulgeIsNeg == (⟨7 / 25, -24 / 25, -1 / 2⟩ : Vertex ℝ).bulgeIsNeg) = false := by
      rw [Vertex.bulgeIsNeg_eq, Vertex.bulgeIsNeg_eq]; norm_num
    have afb : ∀ b : ℝ, angleFromBulge b = 4 * Real.arctan b := fun b => by simp [angleFromBulge]
    have avg : ((1 : ℝ) + 1) / Scalar.two = 1 := by rw [two_eq]; norm_num
    have hw0 : 0 < Real.arctan (1 / 2) := Real.arctan_pos.mpr (by norm_num)
    have hw1 : Real.arctan (1 / 2) < 1 / 2 := by
      have := Real.lt_tan hw0 (Real.arctan_lt_pi_div_two _)
      rwa [Real.tan_arctan] at this
    have hpi := Real.pi_gt_three
    have d1 : |deltaAngle 0 (Real.pi + 4 * Real.arctan (1 / 2))| = |4 * Real.arctan (1 / 2) - Real.pi| := by
      apply abs_deltaAngle_of_congr
      · exact ⟨1, by push_cast; ring⟩
      · rw [abs_le]; constructor <;> linarith
    have d2 : deltaAngle Real.pi (0 + 4 * Real.arctan 1) = 0 := by
      rw [Real.arctan_one]
      apply deltaAngle_of_congr _ (by linarith) (by linarith)
      exact ⟨0, by push_cast; ring⟩
    unfold arcArcOverlap
    simp only [Vertex.pos, hdir, Bool.false_eq_true, if_false, a1, a2, n1, n2, avg, afb, one_mul, d2,
      show -(-1 / 2 : ℝ) = 1 / 2 by norm_num]
    have t1 : Scalar.fuzzyEqZeroEps (deltaAngle 0 (Real.pi + 4 * Real.arctan (1 / 2))) (1 / 100000) = false := by
      rw [fuzzyEqZeroEps_eq, decide_eq_false_iff_not, d1, not_lt, abs_of_neg (by linarith)]; linarith
    have t2 : Scalar.fuzzyEqZeroEps (0 : ℝ) (1 / 100000) = true := by
      rw [fuzzyEqZeroEps_eq, decide_eq_true_eq]; norm_num
    rw [t1, t2]
  · intro q hq
    have hy := upper_nonneg hq
    unfold edist
    apply Real.le_sqrt_of_sq_le
    dsimp only
    nlinarith [sq_nonneg (q.x - 7 / 25)]

theorem tiny_upper : ProperArc ⟨1 / 1000, 0, 1⟩ (⟨-1 / 1000, 0, 0⟩ : Vertex ℝ) := by
  refine ⟨?_, by norm_num, ?_⟩
  · unfold IsLine; norm_num
  · simp [Vertex.pos]; norm_num

theorem tiny_center : arcCenter (⟨1 / 1000, 0⟩ : V2 ℝ) ⟨-1 / 1000, 0⟩ 1 = ⟨0, 0⟩ := by
  unfold arcCenter; norm_num
theorem tiny_radius : arcRadius (⟨1 / 1000, 0⟩ : V2 ℝ) ⟨-1 / 1000, 0⟩ 1 = 1 / 1000 := by
  unfold arcRadius
  rw [edist_of_sq (d := 2 / 1000) (by norm_num) (by norm_num)]; norm_num

theorem tiny_nonneg {q : V2 ℝ} (h : OnSeg ⟨1 / 1000, 0, 1⟩ (⟨-1 / 1000, 0, 0⟩ : Vertex ℝ) q) : 0 ≤ q.y := by
  obtain ⟨t, ht0, ht1, rfl⟩ := h
  rw [segCurve_arc tiny_upper.notLine]
  simp only [Vertex.pos, arcPoint, tiny_center, rotV, Real.arctan_one]
  have : 0 ≤ Real.sin (t * (4 * (Real.pi / 4))) := by
    apply Real.sin_nonneg_of_nonneg_of_le_pi
    · have := Real.pi_pos; positivity
    · nlinarith [Real.pi_pos]
  simpa using this

/-- **C27** (disagreement) The sweep test compares areas with `eps`: for an arc whose squared radius is
below `eps` it accepts every point of the circle. The line `(0, -1)` to `(0, 0)` stays below the upper half
of the circle of radius `1/1000`, at distance at least `1/1000 = 100 * eps` where it is reported to intersect. -/
theorem C27_small_arc_witness :
    plineSegIntr (⟨0, -1, 0⟩ : Vertex ℝ) ⟨0, 0, 0⟩ ⟨1 / 1000, 0, 1⟩ ⟨-1 / 1000, 0, 0⟩ (1 / 100000)
      = .oneIntersect ⟨0, -1 / 1000⟩ ∧
    ∀ q, OnSeg (⟨1 / 1000, 0, 1⟩ : Vertex ℝ) ⟨-1 / 1000, 0, 0⟩ q → 1 / 1000 ≤ edist q ⟨0, -1 / 1000⟩ := by
  constructor
  · have hl : IsLine (⟨0, -1, 0⟩ : Vertex ℝ) := by unfold IsLine; norm_num
    have hb := bulge_ne_zero tiny_upper.notLine
    unfold plineSegIntr
    simp only [bulgeIsZero_true hl, bulgeIsZero_false tiny_upper.notLine, Bool.true_and, Bool.false_eq_true, if_false, if_true]
    unfold processLineArcIntr
    simp only [segArcRadiusAndCenter_eq _ _ hb tiny_upper.ne, length_edist]
    simp only [Vertex.pos, tiny_center, tiny_radius]
    have hlen : edist (⟨0, -1⟩ : V2 ℝ) ⟨0, 0⟩ = 1 := edist_of_sq (by norm_num) (by norm_num)
    have hcirc : lineCircleIntr (⟨0, -1⟩ : V2 ℝ) ⟨0, 0⟩ (1 / 1000) ⟨0, 0⟩ (1 / 100000)
        = .twoIntersects (999 / 1000) (1001 / 1000) := by
      have hs : Real.sqrt ((1000 * 1000)⁻¹) = 1 / 1000 := by
        rw [show ((1000 * 1000 : ℝ))⁻¹ = (1 / 1000) ^ 2 by norm_num, Real.sqrt_sq (by norm_num)]
      unfold lineCircleIntr
      simp [V2.fuzzyEqEps, parametricFromPoint, minMax, hs]
      norm_num
    have p1 : pointFromParametric (⟨0, -1⟩ : V2 ℝ) ⟨0, 0⟩ (999 / 1000) = ⟨0, -1 / 1000⟩ := by
      rw [pointFromParametric_eq]; simp [linePoint]; norm_num
    have hin : pointWithinArcSweep (⟨0, 0⟩ : V2 ℝ) ⟨1 / 1000, 0⟩ ⟨-1 / 1000, 0⟩ (⟨1 / 1000, 0, 1⟩ : Vertex ℝ).bulgeIsNeg
        ⟨0, -1 / 1000⟩ (1 / 100000) = true := by
      unfold pointWithinArcSweep
      rw [Vertex.bulgeIsNeg_eq]
      norm_num [isLeftOrCoincidentEps, isRightOrCoincidentEps, perpDotTestValue]
    have l0 : pointLiesOnArc (1 / 1000) (⟨0, 0⟩ : V2 ℝ) ⟨1 / 1000, 0, 1⟩ ⟨-1 / 1000, 0, 0⟩ (1 / 100000) ⟨0, -1⟩ = false := by
      rw [← Bool.not_eq_true, liesOnArc_iff, edist_of_sq (d := 1) (by norm_num) (by norm_num)]
      norm_num [abs_of_pos]
    have l1 : pointLiesOnArc (1 / 1000) (⟨0, 0⟩ : V2 ℝ) ⟨1 / 1000, 0, 1⟩ ⟨-1 / 1000, 0, 0⟩ (1 / 100000) ⟨0, 0⟩ = false := by
      rw [← Bool.not_eq_true, liesOnArc_iff, edist_of_sq (d := 0) (by norm_num) (by norm_num)]
      norm_num [abs_of_pos]
    have r0 : Scalar.fuzzyInRangeEps (999 / 1000 * 1 : ℝ) 0 1 (1 / 100000) = true := by
      rw [fuzzyInRangeEps_eq]; norm_num
    have r1 : Scalar.fuzzyInRangeEps (1001 / 1000 * 1 : ℝ) 0 1 (1 / 100000) = false := by
      rw [fuzzyInRangeEps_eq]; norm_num
    rw [hcirc]
    simp only [hlen, r0, r1, Bool.not_true, Bool.not_false, Bool.false_eq_true, if_false, if_true, p1, hin, l0, l1]
  · intro q hq
    have hy := tiny_nonneg hq
    unfold edist
    apply Real.le_sqrt_of_sq_le
    dsimp only
    nlinarith [sq_nonneg (q.x)]

/-! ## The hypotheses are met -/

/-- `C27_lines`, `C27_lines_complete`: the diagonals of a square -/
example : LinesResolved (⟨0, 0⟩ : V2 ℝ) ⟨2, 2⟩ ⟨0, 2⟩ ⟨2, 0⟩ (1 / 100000) ∧
    plineSegIntr (⟨0, 0, 0⟩ : Vertex ℝ) ⟨2, 2, 0⟩ ⟨0, 2, 0⟩ ⟨2, 0, 0⟩ (1 / 100000) = .oneIntersect ⟨1, 1⟩ := by
  have hd : (1 : ℝ) / 100000 ≤ |dirCross (⟨0, 0⟩ : V2 ℝ) ⟨2, 2⟩ ⟨0, 2⟩ ⟨2, 0⟩| := by
    unfold dirCross; norm_num [V2.perpDot_eq]
  refine ⟨Or.inl hd, C27_lines_complete _ _ _ _ _ (by norm_num) ?_ ?_ hd _ ⟨1 / 2, by norm_num, by norm_num, ?_⟩
    ⟨1 / 2, by norm_num, by norm_num, ?_⟩⟩
  · unfold IsLine; norm_num
  · unfold IsLine; norm_num
  · rw [segCurve_line (by unfold IsLine; norm_num)]; simp [linePoint, Vertex.pos]
  · rw [segCurve_line (by unfold IsLine; norm_num)]; simp [linePoint, Vertex.pos]; norm_num

/-- `C27_line_arc`: a vertical line through the upper half of the unit circle -/
example : LineOk (⟨0, -1⟩ : V2 ℝ) ⟨0, 2⟩ (1 / 100000) ∧ ProperArc (⟨1, 0, 1⟩ : Vertex ℝ) ⟨-1, 0, 0⟩ ∧
    SweepClear (⟨1, 0, 1⟩ : Vertex ℝ) ⟨-1, 0, 0⟩ ⟨0, 1⟩ (1 / 100000) ∧
    (⟨0, 1⟩ : V2 ℝ) ∈ (plineSegIntr (⟨0, -1, 0⟩ : Vertex ℝ) ⟨0, 2, 0⟩ ⟨1, 0, 1⟩ ⟨-1, 0, 0⟩ (1 / 100000)).points := by
  refine ⟨⟨?_, Or.inl rfl⟩, unit_upper, ?_, ?_⟩
  · unfold Apart; norm_num
  · rintro e (rfl | rfl) <;> simp only [Vertex.pos, upper_center, cross] <;> norm_num
  · have hl : IsLine (⟨0, -1, 0⟩ : Vertex ℝ) := by unfold IsLine; norm_num
    have hb := bulge_ne_zero unit_upper.notLine
    unfold plineSegIntr
    simp only [bulgeIsZero_true hl, bulgeIsZero_false unit_upper.notLine, Bool.true_and, Bool.false_eq_true, if_false, if_true]
    unfold processLineArcIntr
    simp only [segArcRadiusAndCenter_eq _ _ hb unit_upper.ne, length_edist]
    simp only [Vertex.pos, upper_center, upper_radius]
    have hlen : edist (⟨0, -1⟩ : V2 ℝ) ⟨0, 2⟩ = 3 := edist_of_sq (by norm_num) (by norm_num)
    have hcirc : lineCircleIntr (⟨0, -1⟩ : V2 ℝ) ⟨0, 2⟩ 1 ⟨0, 0⟩ (1 / 100000)
        = .twoIntersects 0 (2 / 3) := by
      unfold lineCircleIntr
      norm_num [V2.fuzzyEqEps, parametricFromPoint, minMax]
    have p1 : pointFromParametric (⟨0, -1⟩ : V2 ℝ) ⟨0, 2⟩ (2 / 3) = ⟨0, 1⟩ := by
      rw [pointFromParametric_eq]; simp [linePoint]; norm_num
    have p0 : pointFromParametric (⟨0, -1⟩ : V2 ℝ) ⟨0, 2⟩ 0 = ⟨0, -1⟩ := by
      rw [pointFromParametric_eq]; simp [linePoint]
    have hin : pointWithinArcSweep (⟨0, 0⟩ : V2 ℝ) ⟨1, 0⟩ ⟨-1, 0⟩ (⟨1, 0, 1⟩ : Vertex ℝ).bulgeIsNeg
        ⟨0, 1⟩ (1 / 100000) = true := by
      unfold pointWithinArcSweep
      rw [Vertex.bulgeIsNeg_eq]
      norm_num [isLeftOrCoincidentEps, isRightOrCoincidentEps, perpDotTestValue]
    have hout : pointWithinArcSweep (⟨0, 0⟩ : V2 ℝ) ⟨1, 0⟩ ⟨-1, 0⟩ (⟨1, 0, 1⟩ : Vertex ℝ).bulgeIsNeg
        ⟨0, -1⟩ (1 / 100000) = false := by
      unfold pointWithinArcSweep
      rw [Vertex.bulgeIsNeg_eq]
      norm_num [isLeftOrCoincidentEps, isRightOrCoincidentEps, perpDotTestValue]
    have l0 : pointLiesOnArc 1 (⟨0, 0⟩ : V2 ℝ) ⟨1, 0, 1⟩ ⟨-1, 0, 0⟩ (1 / 100000) ⟨0, -1⟩ = false := by
      unfold pointLiesOnArc
      simp only [Vertex.pos, hout, Bool.false_and]
    have l1 : pointLiesOnArc 1 (⟨0, 0⟩ : V2 ℝ) ⟨1, 0, 1⟩ ⟨-1, 0, 0⟩ (1 / 100000) ⟨0, 2⟩ = false := by
      rw [← Bool.not_eq_true, liesOnArc_iff, edist_of_sq (d := 2) (by norm_num) (by norm_num)]
      norm_num [abs_of_pos]
    have r0 : Scalar.fuzzyInRangeEps (0 * 3 : ℝ) 0 3 (1 / 100000) = true := by
      rw [fuzzyInRangeEps_eq]; norm_num
    have r1 : Scalar.fuzzyInRangeEps (2 / 3 * 3 : ℝ) 0 3 (1 / 100000) = true := by
      rw [fuzzyInRangeEps_eq]; norm_num
    rw [hcirc]
    simp only [hlen, r0, r1, Bool.not_true, Bool.false_eq_true, if_false, if_true, p0, p1, hin, hout, l0, l1,
      PlineSegIntr.points, List.mem_singleton]

/-- `C27_arcs`: the upper halves of two circles of radius 5 whose centers are 6 apart -/
example : ProperArc (⟨5, 0, 1⟩ : Vertex ℝ) ⟨-5, 0, 0⟩ ∧ ProperArc (⟨11, 0, 1⟩ : Vertex ℝ) ⟨1, 0, 0⟩ ∧
    arcCenter (⟨5, 0⟩ : V2 ℝ) ⟨-5, 0⟩ 1 = ⟨0, 0⟩ ∧ arcCenter (⟨11, 0⟩ : V2 ℝ) ⟨1, 0⟩ 1 = ⟨6, 0⟩ ∧
    arcRadius (⟨5, 0⟩ : V2 ℝ) ⟨-5, 0⟩ 1 = 5 ∧ arcRadius (⟨11, 0⟩ : V2 ℝ) ⟨1, 0⟩ 1 = 5 ∧
    SweepClear (⟨5, 0, 1⟩ : Vertex ℝ) ⟨-5, 0, 0⟩ ⟨3, 4⟩ (1 / 100000) ∧
    SweepClear (⟨11, 0, 1⟩ : Vertex ℝ) ⟨1, 0, 0⟩ ⟨3, 4⟩ (1 / 100000) ∧
    plineSegIntr (⟨5, 0, 1⟩ : Vertex ℝ) ⟨-5, 0, 0⟩ ⟨11, 0, 1⟩ ⟨1, 0, 0⟩ (1 / 100000) = .oneIntersect ⟨3, 4⟩ := by
  have pv : ProperArc (⟨5, 0, 1⟩ : Vertex ℝ) ⟨-5, 0, 0⟩ := by
    refine ⟨?_, by norm_num, ?_⟩
    · unfold IsLine; norm_num
    · simp [Vertex.pos]; norm_num
  have pu : ProperArc (⟨11, 0, 1⟩ : Vertex ℝ) ⟨1, 0, 0⟩ := by
    refine ⟨?_, by norm_num, ?_⟩
    · unfold IsLine; norm_num
    · simp [Vertex.pos]
  have c1 : arcCenter (⟨5, 0⟩ : V2 ℝ) ⟨-5, 0⟩ 1 = ⟨0, 0⟩ := by unfold arcCenter; norm_num
  have c2 : arcCenter (⟨11, 0⟩ : V2 ℝ) ⟨1, 0⟩ 1 = ⟨6, 0⟩ := by unfold arcCenter; norm_num
  have r1 : arcRadius (⟨5, 0⟩ : V2 ℝ) ⟨-5, 0⟩ 1 = 5 := by
    unfold arcRadius; rw [edist_of_sq (d := 10) (by norm_num) (by norm_num)]; norm_num
  have r2 : arcRadius (⟨11, 0⟩ : V2 ℝ) ⟨1, 0⟩ 1 = 5 := by
    unfold arcRadius; rw [edist_of_sq (d := 10) (by norm_num) (by norm_num)]; norm_num
  refine ⟨pv, pu, c1, c2, r1, r2, ?_, ?_, ?_⟩
  · rintro e (rfl | rfl) <;> simp only [Vertex.pos, c1, cross] <;> norm_num
  · rintro e (rfl | rfl) <;> simp only [Vertex.pos, c2, cross] <;> norm_num
  · have hbv := bulge_ne_zero pv.notLine
    have hbu := bulge_ne_zero pu.notLine
    unfold plineSegIntr
    simp only [bulgeIsZero_false pv.notLine, bulgeIsZero_false pu.notLine, Bool.and_self, Bool.false_eq_true, if_false,
      segArcRadiusAndCenter_eq _ _ hbv pv.ne, segArcRadiusAndCenter_eq _ _ hbu pu.ne]
    simp only [Vertex.pos, c1, c2, r1, r2]
    have hres : circleCircleIntr (T := ℝ) 5 ⟨0, 0⟩ 5 ⟨6, 0⟩ (1 / 100000) = .twoIntersects ⟨3, -4⟩ ⟨3, 4⟩ := by
      have s1 : Real.sqrt (6 * 6) = 6 := by rw [Real.sqrt_mul_self (by norm_num)]
      have s2 : Real.sqrt 16 = 4 := by rw [show (16 : ℝ) = 4 * 4 by norm_num, Real.sqrt_mul_self (by norm_num)]
      unfold circleCircleIntr
      simp [V2.dot_eq, s1, V2.fuzzyEqEps]
      norm_num [s2]
    have m1 : pointWithinArcSweep (⟨0, 0⟩ : V2 ℝ) ⟨5, 0⟩ ⟨-5, 0⟩ (⟨5, 0, 1⟩ : Vertex ℝ).bulgeIsNeg ⟨3, -4⟩ (1 / 100000) = false := by
      unfold pointWithinArcSweep
      rw [Vertex.bulgeIsNeg_eq]
      norm_num [isLeftOrCoincidentEps, isRightOrCoincidentEps, perpDotTestValue]
    have m2 : pointWithinArcSweep (⟨0, 0⟩ : V2 ℝ) ⟨5, 0⟩ ⟨-5, 0⟩ (⟨5, 0, 1⟩ : Vertex ℝ).bulgeIsNeg ⟨3, 4⟩ (1 / 100000) = true := by
      unfold pointWithinArcSweep
      rw [Vertex.bulgeIsNeg_eq]
      norm_num [isLeftOrCoincidentEps, isRightOrCoincidentEps, perpDotTestValue]
    have m3 : pointWithinArcSweep (⟨6, 0⟩ : V2 ℝ) ⟨11, 0⟩ ⟨1, 0⟩ (⟨11, 0, 1⟩ : Vertex ℝ).bulgeIsNeg ⟨3, 4⟩ (1 / 100000) = true := by
      unfold pointWithinArcSweep
      rw [Vertex.bulgeIsNeg_eq]
      norm_num [isLeftOrCoincidentEps, isRightOrCoincidentEps, perpDotTestValue]
    have l : ∀ (p : V2 ℝ) (c : V2 ℝ) (a b : Vertex ℝ) (d : ℝ), 0 ≤ d → (p.x - c.x) ^ 2 + (p.y - c.y) ^ 2 = d ^ 2 →
        1 / 100000 ≤ |d - 5| → pointLiesOnArc 5 c a b (1 / 100000) p = false := by
      intro p c a b d hd hsq hlt
      rw [← Bool.not_eq_true, liesOnArc_iff, edist_of_sq hd hsq]
      exact fun h => absurd h.2 (not_lt.mpr hlt)
    rw [hres]
    unfold arcArcTwoIntr
    simp only [Vertex.pos, m1, m2, m3, Bool.and_self, Bool.false_and,
      l ⟨11, 0⟩ ⟨0, 0⟩ _ _ 11 (by norm_num) (by norm_num) (by norm_num [abs_of_pos]),
      l ⟨1, 0⟩ ⟨0, 0⟩ _ _ 1 (by norm_num) (by norm_num) (by norm_num [abs_of_neg]),
      l ⟨5, 0⟩ ⟨6, 0⟩ _ _ 1 (by norm_num) (by norm_num) (by norm_num [abs_of_neg]),
      l ⟨-5, 0⟩ ⟨6, 0⟩ _ _ 11 (by norm_num) (by norm_num) (by norm_num [abs_of_pos]), Bool.false_eq_true, if_false, if_true]

/-- `C27_same_circle_partial`: the two arcs of the witness, the second one reversed -/
example : ProperArc (⟨1, 0, 1⟩ : Vertex ℝ) ⟨-1, 0, 0⟩ ∧ ProperArc (⟨-1, 0, 1 / 2⟩ : Vertex ℝ) ⟨7 / 25, -24 / 25, 0⟩ ∧
    arcCenter (⟨-1, 0⟩ : V2 ℝ) ⟨7 / 25, -24 / 25⟩ (1 / 2) = arcCenter (⟨1, 0⟩ : V2 ℝ) ⟨-1, 0⟩ 1 ∧
    arcRadius (⟨-1, 0⟩ : V2 ℝ) ⟨7 / 25, -24 / 25⟩ (1 / 2) = arcRadius (⟨1, 0⟩ : V2 ℝ) ⟨-1, 0⟩ 1 ∧
    arcRadius (⟨1, 0⟩ : V2 ℝ) ⟨-1, 0⟩ 1 ≤ 100000000 * (1 / 100000) ∧ (((1 : ℝ) < 0) ↔ ((1 : ℝ) / 2 < 0)) := by
  refine ⟨unit_upper, ⟨?_, by norm_num [abs_of_pos], ?_⟩, ?_, ?_, ?_, by norm_num⟩
  · unfold IsLine; norm_num [abs_of_pos]
  · simp [Vertex.pos]; norm_num
  · rw [upper_center]; unfold arcCenter; norm_num
  · rw [upper_radius]
    unfold arcRadius
    have : edist (⟨-1, 0⟩ : V2 ℝ) ⟨7 / 25, -24 / 25⟩ = Real.sqrt (64 / 25) := by
      unfold edist; norm_num
    rw [this, show (64 / 25 : ℝ) = (8 / 5) ^ 2 by norm_num, Real.sqrt_sq (by norm_num)]
    norm_num [abs_of_pos]
  · rw [upper_radius]; norm_num

end Cavc
