import Mathlib.Analysis.SpecialFunctions.Integrals.Basic
import Verif.Lemmas.ArcAngle

/-! # C28 - C31 and the length of a segment (C08): single segments -/

namespace Cavc
open Scalar RealScalar

/-- A usable arc segment: not treated as a line, at most half a circle (the documented limit of the
format), end points not equal (the code divides by the chord length). -/
structure ProperArc (v1 v2 : Vertex ℝ) : Prop where
  notLine : ¬ IsLine v1
  half : |v1.bulge| ≤ 1
  ne : v1.pos ≠ v2.pos

theorem bulge_ne_zero {v1 : Vertex ℝ} (h : ¬ IsLine v1) : v1.bulge ≠ 0 := by
  intro h0; apply h; unfold IsLine; rw [h0]; norm_num

theorem bulgeIsZero_true {v : Vertex ℝ} (h : IsLine v) : v.bulgeIsZero = true := by
  rw [Vertex.bulgeIsZero_eq]; simpa [IsLine] using h
theorem bulgeIsZero_false {v : Vertex ℝ} (h : ¬ IsLine v) : v.bulgeIsZero = false := by
  rw [Vertex.bulgeIsZero_eq]; simpa [IsLine] using h
theorem bulgeIsZero_iff {v : Vertex ℝ} : v.bulgeIsZero = true ↔ IsLine v := by
  rw [Vertex.bulgeIsZero_eq]; simp [IsLine]

theorem segCurve_line {v1 v2 : Vertex ℝ} (h : IsLine v1) (t : ℝ) :
    segCurve v1 v2 t = linePoint v1.pos v2.pos t := by simp [segCurve, h, Vertex.pos]
theorem segCurve_arc {v1 v2 : Vertex ℝ} (h : ¬ IsLine v1) (t : ℝ) :
    segCurve v1 v2 t = arcPoint v1.pos v2.pos v1.bulge t := by simp [segCurve, h, Vertex.pos]

/-- Sanity of the specification: the curve of a segment runs from its first to its second vertex. -/
theorem segCurve_ends (v1 v2 : Vertex ℝ) :
    segCurve v1 v2 0 = v1.pos ∧ segCurve v1 v2 1 = v2.pos := by
  by_cases h : IsLine v1
  · simp [segCurve_line h, linePoint, V2.ext_iff']
  · simp [segCurve_arc h, arcPoint_one _ _ _ (bulge_ne_zero h)]

/-! ## C29 -/

/-- **C29** radius and center: the radius is positive, both end points are on the circle, turning
the start about the center by the sweep angle gives the end, and the reversed arc has the same
circle. -/
theorem C29_radius_and_center (v1 v2 : Vertex ℝ) (hb : v1.bulge ≠ 0) (hne : v1.pos ≠ v2.pos) :
    let r := (segArcRadiusAndCenter v1 v2).1
    let c := (segArcRadiusAndCenter v1 v2).2
    0 < r ∧ edist v1.pos c = r ∧ edist v2.pos c = r ∧
    rotV (angleFromBulge v1.bulge) ⟨v1.x - c.x, v1.y - c.y⟩ = ⟨v2.x - c.x, v2.y - c.y⟩ ∧
    segArcRadiusAndCenter ⟨v2.x, v2.y, -v1.bulge⟩ v1 = (r, c) := by
  rw [segArcRadiusAndCenter_eq v1 v2 hb hne]
  refine ⟨arcRadius_pos hne hb, ?_, ?_, ?_, ?_⟩
  · have := arcPoint_edist v1.pos v2.pos v1.bulge 0 hb
    rwa [arcPoint_zero] at this
  · have := arcPoint_edist v1.pos v2.pos v1.bulge 1 hb
    rwa [arcPoint_one _ _ _ hb] at this
  · have := arcPoint_one v1.pos v2.pos v1.bulge hb
    rw [V2.ext_iff'] at this
    simp only [arcPoint, one_mul, Vertex.pos_x, Vertex.pos_y] at this
    show rotV (4 * Real.arctan v1.bulge) _ = _
    rw [V2.ext_iff']
    constructor
    · simp only; linarith [this.1]
    · simp only; linarith [this.2]
  · rw [segArcRadiusAndCenter_eq _ _ (by simpa using hb) (by
      intro h; apply hne; exact h.symm)]
    show (arcRadius v2.pos v1.pos (-v1.bulge), arcCenter v2.pos v1.pos (-v1.bulge)) = _
    rw [arcRadius_swap, arcCenter_swap _ _ _ hb]

/-! ## C30 -/

/-- **C30** `seg_midpoint` is the point of the segment after half of its length / sweep. -/
theorem C30_midpoint (v1 v2 : Vertex ℝ) (h : IsLine v1 ∨ ProperArc v1 v2) :
    segMidpoint v1 v2 = segCurve v1 v2 (1 / 2) ∧
    edist v1.pos (segMidpoint v1 v2) = edist v2.pos (segMidpoint v1 v2) := by
  have key : segMidpoint v1 v2 = segCurve v1 v2 (1 / 2) := by
    rcases h with h | h
    · rw [segCurve_line h]
      unfold segMidpoint
      rw [bulgeIsZero_true h]
      simp only [if_true, midpoint, two_eq, linePoint, Vertex.pos_x, Vertex.pos_y, V2.mk.injEq]
      constructor <;> ring
    · have hb := bulge_ne_zero h.notLine
      rw [segCurve_arc h.notLine]
      unfold segMidpoint
      rw [bulgeIsZero_false h.notLine, segArcRadiusAndCenter_eq v1 v2 hb h.ne]
      simp only [Bool.false_eq_true, if_false, two_eq]
      rw [deltaAngleSigned_of_congr (angle_arcEnd h.ne hb) (abs_four_arctan_le h.half)
        (by
          intro hn
          rw [Vertex.bulgeIsNeg_eq, decide_eq_true_eq] at hn
          have := ((C35_half_circle v1.bulge).2.2.2).mp hn
          exact this.le)
        (by
          intro hn
          rw [Vertex.bulgeIsNeg_eq, decide_eq_false_iff_not] at hn
          have : ¬ angleFromBulge v1.bulge < 0 := fun h' =>
            hn (((C35_half_circle v1.bulge).2.2.2).mpr h')
          exact not_lt.mp this)]
      rw [← pointOnCircle_eq_arcPoint hb (1 / 2)]
      congr 1
      ring
  refine ⟨key, ?_⟩
  rw [key]
  by_cases hl : IsLine v1
  · rw [segCurve_line hl]
    simp only [edist, linePoint]; congr 1; ring
  · have hb := bulge_ne_zero hl
    rw [segCurve_arc hl]
    have e : (arcPoint v1.pos v2.pos v1.bulge (1 / 2)) =
        arcPoint v2.pos v1.pos (-v1.bulge) (1 / 2) := by
      rw [arcPoint_swap _ _ _ _ hb]; norm_num
    have aux : ∀ (p q : V2 ℝ) (b : ℝ), b ≠ 0 →
        (p.x - (arcPoint p q b (1/2)).x) ^ 2 + (p.y - (arcPoint p q b (1/2)).y) ^ 2
          = arcRadius p q b ^ 2 * (2 - 2 * Real.cos (2 * Real.arctan b)) := by
      intro p q b hb
      rw [← start_dist_sq p q b hb]
      simp only [arcPoint, rotV, show (1:ℝ) / 2 * (4 * Real.arctan b) = 2 * Real.arctan b by ring]
      have := Real.sin_sq_add_cos_sq (2 * Real.arctan b)
      set s := Real.sin (2 * Real.arctan b)
      set c := Real.cos (2 * Real.arctan b)
      linear_combination ((p.x - (arcCenter p q b).x) ^ 2 + (p.y - (arcCenter p q b).y) ^ 2) * this
    unfold edist
    congr 1
    rw [aux _ _ _ hb, e, aux _ _ _ (neg_ne_zero.mpr hb), arcRadius_swap, Real.arctan_neg]
    rw [show 2 * -Real.arctan v1.bulge = -(2 * Real.arctan v1.bulge) by ring, Real.cos_neg]

/-! ## C31 -/

theorem arcPoint_hasDerivAt (p q : V2 ℝ) (b t : ℝ) :
    HasDerivAt (fun t => (arcPoint p q b t).x)
      (-(4 * Real.arctan b) * ((arcPoint p q b t).y - (arcCenter p q b).y)) t ∧
    HasDerivAt (fun t => (arcPoint p q b t).y)
      ((4 * Real.arctan b) * ((arcPoint p q b t).x - (arcCenter p q b).x)) t := by
  have hlin : HasDerivAt (fun t : ℝ => t * (4 * Real.arctan b)) (4 * Real.arctan b) t := by
    simpa using (hasDerivAt_id t).mul_const (4 * Real.arctan b)
  have hc := hlin.cos
  have hs := hlin.sin
  simp only [arcPoint, rotV]
  constructor
  · have := ((hc.const_mul (p.x - (arcCenter p q b).x)).sub
      (hs.const_mul (p.y - (arcCenter p q b).y))).const_add (arcCenter p q b).x
    refine (this.congr_deriv ?_)
    ring
  · have := ((hs.const_mul (p.x - (arcCenter p q b).x)).add
      (hc.const_mul (p.y - (arcCenter p q b).y))).const_add (arcCenter p q b).y
    refine (this.congr_deriv ?_)
    ring

theorem linePoint_hasDerivAt (p q : V2 ℝ) (t : ℝ) :
    HasDerivAt (fun t => (linePoint p q t).x) (q.x - p.x) t ∧
    HasDerivAt (fun t => (linePoint p q t).y) (q.y - p.y) t := by
  simp only [linePoint]
  constructor
  · simpa using ((hasDerivAt_id t).mul_const (q.x - p.x)).const_add p.x
  · simpa using ((hasDerivAt_id t).mul_const (q.y - p.y)).const_add p.y

/-- **C31** at every point of the segment the tangent vector is, up to a positive factor, the
derivative of the curve in the direction of travel. -/
theorem C31_tangent (v1 v2 : Vertex ℝ) (hne : IsLine v1 ∨ v1.pos ≠ v2.pos) (t : ℝ) :
    let w := segTangentVector v1 v2 (segCurve v1 v2 t)
    ∃ k, 0 < k ∧ HasDerivAt (fun t => (segCurve v1 v2 t).x) (k * w.x) t ∧
      HasDerivAt (fun t => (segCurve v1 v2 t).y) (k * w.y) t := by
  intro w
  by_cases hl : IsLine v1
  · refine ⟨1, one_pos, ?_⟩
    have hw : w = ⟨v2.x - v1.x, v2.y - v1.y⟩ := by
      show segTangentVector v1 v2 _ = _
      unfold segTangentVector
      rw [bulgeIsZero_true hl]
      simp only [if_true]
      rfl
    rw [hw]
    simp only [segCurve_line hl, one_mul]
    exact linePoint_hasDerivAt v1.pos v2.pos t
  · have hb := bulge_ne_zero hl
    have hne' : v1.pos ≠ v2.pos := by rcases hne with h | h; exact absurd h hl; exact h
    have hd := arcPoint_hasDerivAt v1.pos v2.pos v1.bulge t
    have hsgn := C35_half_circle v1.bulge
    have he : angleFromBulge v1.bulge = 4 * Real.arctan v1.bulge := rfl
    rw [he] at hsgn
    by_cases hp : 0 < v1.bulge
    · refine ⟨4 * Real.arctan v1.bulge, hsgn.2.2.1.mp hp, ?_⟩
      have hw : w = ⟨-((segCurve v1 v2 t).y - (arcCenter v1.pos v2.pos v1.bulge).y),
          (segCurve v1 v2 t).x - (arcCenter v1.pos v2.pos v1.bulge).x⟩ := by
        show segTangentVector v1 v2 _ = _
        unfold segTangentVector
        rw [bulgeIsZero_false hl, segArcRadiusAndCenter_eq v1 v2 hb hne']
        simp [hp]
      rw [hw]
      simp only [segCurve_arc hl]
      exact ⟨by convert hd.1 using 1; ring, hd.2⟩
    · have hn : v1.bulge < 0 := lt_of_le_of_ne (not_lt.mp hp) hb
      refine ⟨-(4 * Real.arctan v1.bulge), by linarith [hsgn.2.2.2.mp hn], ?_⟩
      have hw : w = ⟨(segCurve v1 v2 t).y - (arcCenter v1.pos v2.pos v1.bulge).y,
          -((segCurve v1 v2 t).x - (arcCenter v1.pos v2.pos v1.bulge).x)⟩ := by
        show segTangentVector v1 v2 _ = _
        unfold segTangentVector
        rw [bulgeIsZero_false hl, segArcRadiusAndCenter_eq v1 v2 hb hne']
        simp [hp]
      rw [hw]
      simp only [segCurve_arc hl]
      exact ⟨hd.1, by convert hd.2 using 1; ring⟩

/-! ## Length of a segment (C08) -/

/-- Specification: length of a parametrised curve on `[0, 1]`, the integral of its speed. -/
noncomputable def curveLength (γ : ℝ → V2 ℝ) : ℝ :=
  ∫ t in (0:ℝ)..1, Real.sqrt (deriv (fun t => (γ t).x) t ^ 2 + deriv (fun t => (γ t).y) t ^ 2)

theorem curveLength_line (p q : V2 ℝ) : curveLength (linePoint p q) = edist p q := by
  unfold curveLength
  have : ∀ t, Real.sqrt (deriv (fun t => (linePoint p q t).x) t ^ 2
      + deriv (fun t => (linePoint p q t).y) t ^ 2) = edist p q := by
    intro t
    rw [(linePoint_hasDerivAt p q t).1.deriv, (linePoint_hasDerivAt p q t).2.deriv, edist]
    congr 1; ring
  simp [this]

theorem curveLength_arc (p q : V2 ℝ) (b : ℝ) (hb : b ≠ 0) :
    curveLength (arcPoint p q b) = arcRadius p q b * |4 * Real.arctan b| := by
  unfold curveLength
  have : ∀ t, Real.sqrt (deriv (fun t => (arcPoint p q b t).x) t ^ 2
      + deriv (fun t => (arcPoint p q b t).y) t ^ 2) = arcRadius p q b * |4 * Real.arctan b| := by
    intro t
    rw [(arcPoint_hasDerivAt p q b t).1.deriv, (arcPoint_hasDerivAt p q b t).2.deriv]
    have h := arcPoint_dist_sq p q b t hb
    rw [show (-(4 * Real.arctan b) * ((arcPoint p q b t).y - (arcCenter p q b).y)) ^ 2 +
      (4 * Real.arctan b * ((arcPoint p q b t).x - (arcCenter p q b).x)) ^ 2
      = (arcRadius p q b * |4 * Real.arctan b|) ^ 2 by
        rw [mul_pow (arcRadius p q b), sq_abs, ← h]; ring]
    exact Real.sqrt_sq (mul_nonneg (arcRadius_nonneg p q b) (abs_nonneg _))
  simp [this]

/-- Code-side guard of `seg_length`: the two vertexes are fuzzily equal *including the bulge*. -/
theorem vertex_fuzzyEq_iff (v1 v2 : Vertex ℝ) : v1.fuzzyEq v2 = true ↔
    |v1.x - v2.x| < 1 / 100000000 ∧ |v1.y - v2.y| < 1 / 100000000 ∧
      |v1.bulge - v2.bulge| < 1 / 100000000 := by
  simp [Vertex.fuzzyEq, Vertex.fuzzyEqEps, and_assoc]

theorem segLength_eq (v1 v2 : Vertex ℝ) (h : IsLine v1 ∨ ProperArc v1 v2) :
    segLength v1 v2 = if v1.fuzzyEq v2 = true then 0 else curveLength (segCurve v1 v2) := by
  unfold segLength
  split_ifs with h1 h2
  · rfl
  · rw [bulgeIsZero_iff] at h2
    have : segCurve v1 v2 = linePoint v1.pos v2.pos := funext (segCurve_line h2)
    rw [this, curveLength_line, edist, distSquared_eq]; rfl
  · rw [bulgeIsZero_iff] at h2
    have hp : ProperArc v1 v2 := by rcases h with h | h; exact absurd h h2; exact h
    have hb := bulge_ne_zero h2
    have : segCurve v1 v2 = arcPoint v1.pos v2.pos v1.bulge := funext (segCurve_arc h2)
    rw [this, curveLength_arc _ _ _ hb, segArcRadiusAndCenter_eq v1 v2 hb hp.ne]
    simp only [abs_eq]
    rw [abs_deltaAngle_of_congr (angle_arcEnd hp.ne hb) (abs_four_arctan_le hp.half)]

/-- **C08** (one segment) `seg_length` is the length of the curve, except that segments whose two
vertexes agree within `1e-8` in x, y and bulge count as `0`. -/
theorem C08_seg_length (v1 v2 : Vertex ℝ) (h : IsLine v1 ∨ ProperArc v1 v2)
    (hne : ¬ (|v1.x - v2.x| < 1 / 100000000 ∧ |v1.y - v2.y| < 1 / 100000000 ∧
      |v1.bulge - v2.bulge| < 1 / 100000000)) :
    segLength v1 v2 = curveLength (segCurve v1 v2) := by
  rw [segLength_eq v1 v2 h, if_neg]
  rwa [vertex_fuzzyEq_iff]

/-- Non-vacuity: a half circle from `(0,0)` to `(2,0)`. -/
example : ProperArc ⟨0, 0, 1⟩ ⟨2, 0, 0⟩ := by
  refine ⟨?_, by norm_num, ?_⟩
  · simp [IsLine]; norm_num
  · simp [V2.ext_iff']
example : segArcRadiusAndCenter (⟨0, 0, 1⟩ : Vertex ℝ) ⟨2, 0, 0⟩ = (1, ⟨1, 0⟩) := by
  rw [segArcRadiusAndCenter_eq _ _ (by norm_num) (by simp [V2.ext_iff'])]
  simp only [arcRadius, arcCenter, edist, Vertex.pos]
  norm_num
  rw [show (4:ℝ) = 2 ^ 2 by norm_num, Real.sqrt_sq (by norm_num)]
  norm_num

end Cavc
