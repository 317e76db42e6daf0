import Verif.Props.Segment

/-! # C28: splitting a segment -/

namespace Cavc
open Scalar RealScalar

/-- The circular arc about `c` from `p` turned by `φ` has bulge `tan (φ/4)`: its center is `c`. -/
theorem arcCenter_of_rot {c p q : V2 ℝ} {b : ℝ} (hb : b ≠ 0)
    (hx : q.x - c.x = (rotV (4 * Real.arctan b) ⟨p.x - c.x, p.y - c.y⟩).x)
    (hy : q.y - c.y = (rotV (4 * Real.arctan b) ⟨p.x - c.x, p.y - c.y⟩).y) :
    arcCenter p q b = c := by
  have h1 : 1 + b ^ 2 ≠ 0 := by positivity
  simp only [rotV, cos_four_arctan, sin_four_arctan] at hx hy
  have hqx : q.x = c.x + ((p.x - c.x) * (((1 - b ^ 2) ^ 2 - 4 * b ^ 2) / (1 + b ^ 2) ^ 2)
    - (p.y - c.y) * (4 * b * (1 - b ^ 2) / (1 + b ^ 2) ^ 2)) := by linarith
  have hqy : q.y = c.y + ((p.x - c.x) * (4 * b * (1 - b ^ 2) / (1 + b ^ 2) ^ 2)
    + (p.y - c.y) * (((1 - b ^ 2) ^ 2 - 4 * b ^ 2) / (1 + b ^ 2) ^ 2)) := by linarith
  rw [V2.ext_iff']
  simp only [arcCenter, hqx, hqy]
  constructor
  · field_simp; ring
  · field_simp; ring

/-- A sub arc with the same center is a re-parametrised part of the arc. -/
theorem subarc_start {p q : V2 ℝ} {b t : ℝ} (hb : b ≠ 0)
    (ht0 : 0 < t) (ht1 : t < 1) (s : ℝ) :
    Real.tan (t * (4 * Real.arctan b) / 4) ≠ 0 ∧
    4 * Real.arctan (Real.tan (t * (4 * Real.arctan b) / 4)) = t * (4 * Real.arctan b) ∧
    arcPoint p (arcPoint p q b t) (Real.tan (t * (4 * Real.arctan b) / 4)) s
      = arcPoint p q b (t * s) := by
  have h1 := Real.arctan_lt_pi_div_two b
  have h2 := Real.neg_pi_div_two_lt_arctan b
  have hpi := Real.pi_pos
  have e0 : t * (4 * Real.arctan b) / 4 = t * Real.arctan b := by ring
  have ha : Real.arctan (Real.tan (t * (4 * Real.arctan b) / 4)) = t * Real.arctan b := by
    rw [e0, Real.arctan_tan] <;> nlinarith
  have h4 : 4 * Real.arctan (Real.tan (t * (4 * Real.arctan b) / 4)) = t * (4 * Real.arctan b) := by
    rw [ha]; ring
  have hne : Real.tan (t * (4 * Real.arctan b) / 4) ≠ 0 := by
    intro h
    rw [h, Real.arctan_zero] at ha
    rcases mul_eq_zero.mp ha.symm with h' | h'
    · linarith
    · exact hb (Real.arctan_eq_zero_iff.mp h')
  refine ⟨hne, h4, ?_⟩
  have hc : arcCenter p (arcPoint p q b t) (Real.tan (t * (4 * Real.arctan b) / 4))
      = arcCenter p q b := by
    apply arcCenter_of_rot hne
    · rw [h4]; simp [arcPoint]
    · rw [h4]; simp [arcPoint]
  rw [V2.ext_iff']
  simp only [arcPoint] at *
  rw [hc, h4]
  constructor <;> ring_nf

theorem subarc_end {p q : V2 ℝ} {b t : ℝ} (hb : b ≠ 0)
    (ht0 : 0 < t) (ht1 : t < 1) (s : ℝ) :
    Real.tan ((1 - t) * (4 * Real.arctan b) / 4) ≠ 0 ∧
    4 * Real.arctan (Real.tan ((1 - t) * (4 * Real.arctan b) / 4)) = (1 - t) * (4 * Real.arctan b) ∧
    arcPoint (arcPoint p q b t) q (Real.tan ((1 - t) * (4 * Real.arctan b) / 4)) s
      = arcPoint p q b (t + (1 - t) * s) := by
  obtain ⟨h1, h2, h3⟩ := subarc_start (p := q) (q := p) (b := -b) (t := 1 - t)
    (neg_ne_zero.mpr hb) (by linarith) (by linarith) (1 - s)
  have e : (1 - t) * (4 * Real.arctan (-b)) / 4 = -((1 - t) * (4 * Real.arctan b) / 4) := by
    rw [Real.arctan_neg]; ring
  rw [e, Real.tan_neg] at h1 h2 h3
  have hb1 : Real.tan ((1 - t) * (4 * Real.arctan b) / 4) ≠ 0 := by simpa using h1
  refine ⟨hb1, ?_, ?_⟩
  · rw [Real.arctan_neg, Real.arctan_neg] at h2; linarith
  · rw [arcPoint_swap p q b _ hb] at h3
    rw [arcPoint_swap p q b _ hb, arcPoint_swap _ q _ _ hb1] at h3
    rw [show 1 - (1 - t) = t by ring] at h3
    rw [show (1 : ℝ) - (1 - s) = s by ring] at h3
    rw [h3]
    congr 1; ring

/-- **C28** splitting a line segment at the point after the fraction `t`: both parts are straight,
meet at the point, and trace the two parts of the segment. -/
theorem C28_split_line (v1 v2 : Vertex ℝ) (hl : IsLine v1) (t eps : ℝ) (s : ℝ) :
    let pt := segCurve v1 v2 t
    let r := segSplitAtPoint v1 v2 pt eps
    r.updatedStart.pos = v1.pos ∧ r.splitVertex.pos = pt ∧
    IsLine r.updatedStart ∧ IsLine r.splitVertex ∧
    segCurve r.updatedStart r.splitVertex s = segCurve v1 v2 (t * s) ∧
    segCurve r.splitVertex v2 s = segCurve v1 v2 (t + (1 - t) * s) := by
  intro pt r
  have hr : r = ⟨v1, ⟨pt.x, pt.y, 0⟩⟩ := by
    show segSplitAtPoint v1 v2 pt eps = _
    unfold segSplitAtPoint
    rw [bulgeIsZero_true hl]; simp
  have hl2 : IsLine (⟨pt.x, pt.y, 0⟩ : Vertex ℝ) := by unfold IsLine; norm_num
  rw [hr]
  refine ⟨rfl, rfl, hl, hl2, ?_, ?_⟩
  · rw [segCurve_line hl, segCurve_line hl]
    simp only [pt, segCurve_line hl, linePoint, Vertex.pos, V2.mk.injEq]
    constructor <;> ring
  · rw [segCurve_line hl2, segCurve_line hl]
    simp only [pt, segCurve_line hl, linePoint, Vertex.pos, V2.mk.injEq]
    constructor <;> ring

/-- **C28** splitting an arc at the point after the fraction `t` (the point not within the tolerance
of an end): the parts meet at the point, are arcs of the same circle whose sweep angles add up to
the source's, and trace the two parts of the arc. -/
theorem C28_split_arc (v1 v2 : Vertex ℝ) (h : ProperArc v1 v2) (t eps : ℝ) (ht0 : 0 < t)
    (ht1 : t < 1) (h12 : ¬ v1.pos.fuzzyEqEps v2.pos eps = true)
    (h1p : ¬ v1.pos.fuzzyEqEps (segCurve v1 v2 t) eps = true)
    (h2p : ¬ v2.pos.fuzzyEqEps (segCurve v1 v2 t) eps = true) (s : ℝ) :
    let pt := segCurve v1 v2 t
    let r := segSplitAtPoint v1 v2 pt eps
    r.updatedStart.pos = v1.pos ∧ r.splitVertex.pos = pt ∧
    angleFromBulge r.updatedStart.bulge + angleFromBulge r.splitVertex.bulge
      = angleFromBulge v1.bulge ∧
    angleFromBulge r.updatedStart.bulge = t * angleFromBulge v1.bulge ∧
    arcPoint v1.pos pt r.updatedStart.bulge s = segCurve v1 v2 (t * s) ∧
    arcPoint pt v2.pos r.splitVertex.bulge s = segCurve v1 v2 (t + (1 - t) * s) := by
  intro pt r
  have hb := bulge_ne_zero h.notLine
  have hpt : pt = arcPoint v1.pos v2.pos v1.bulge t := segCurve_arc h.notLine t
  set θ := 4 * Real.arctan v1.bulge with hθ
  have hθpi : |θ| ≤ Real.pi := abs_four_arctan_le h.half
  have hsgn := C35_half_circle v1.bulge
  have he : angleFromBulge v1.bulge = θ := rfl
  rw [he] at hsgn
  have hang := angle_arcPoint h.ne hb t
  have hend := angle_arcEnd h.ne hb
  rw [← hpt] at hang
  have habs : ∀ u : ℝ, 0 ≤ u → u ≤ 1 → |u * θ| ≤ Real.pi := by
    intro u h0 h1
    rw [abs_mul, abs_of_nonneg h0]
    nlinarith [abs_nonneg θ]
  have hneg : v1.bulgeIsNeg = true → θ ≤ 0 := by
    intro hn
    rw [Vertex.bulgeIsNeg_eq, decide_eq_true_eq] at hn
    exact (hsgn.2.2.2.mp hn).le
  have hpos : v1.bulgeIsNeg = false → 0 ≤ θ := by
    intro hn
    rw [Vertex.bulgeIsNeg_eq, decide_eq_false_iff_not] at hn
    exact not_lt.mp (fun h' => hn (hsgn.2.2.2.mpr h'))
  have d1 : deltaAngleSigned (angle (arcCenter v1.pos v2.pos v1.bulge) v1.pos)
      (angle (arcCenter v1.pos v2.pos v1.bulge) pt) v1.bulgeIsNeg = t * θ :=
    deltaAngleSigned_of_congr hang (habs t ht0.le ht1.le)
      (fun hn => by nlinarith [hneg hn]) (fun hn => by nlinarith [hpos hn])
  have d2 : deltaAngleSigned (angle (arcCenter v1.pos v2.pos v1.bulge) pt)
      (angle (arcCenter v1.pos v2.pos v1.bulge) v2.pos) v1.bulgeIsNeg = (1 - t) * θ := by
    apply deltaAngleSigned_of_congr _ (habs (1 - t) (by linarith) (by linarith))
      (fun hn => by nlinarith [hneg hn]) (fun hn => by nlinarith [hpos hn])
    obtain ⟨k, hk⟩ := hang
    obtain ⟨m, hm⟩ := hend
    exact ⟨m - k, by push_cast; linarith⟩
  have hr : r = ⟨⟨v1.x, v1.y, Real.tan (t * θ / 4)⟩, ⟨pt.x, pt.y, Real.tan ((1 - t) * θ / 4)⟩⟩ := by
    show segSplitAtPoint v1 v2 pt eps = _
    unfold segSplitAtPoint
    rw [bulgeIsZero_false h.notLine, Bool.eq_false_iff.mpr h12, Bool.eq_false_iff.mpr h1p,
      Bool.eq_false_iff.mpr h2p, segArcRadiusAndCenter_eq v1 v2 hb h.ne]
    simp only [Bool.or_self, Bool.false_eq_true, if_false, d1, d2]
    rfl
  obtain ⟨a1, a2, a3⟩ := subarc_start (p := v1.pos) (q := v2.pos) hb ht0 ht1 s
  obtain ⟨b1, b2, b3⟩ := subarc_end (p := v1.pos) (q := v2.pos) hb ht0 ht1 s
  rw [hr]
  refine ⟨rfl, rfl, ?_, a2, ?_, ?_⟩
  · show 4 * Real.arctan (Real.tan (t * θ / 4)) + 4 * Real.arctan (Real.tan ((1 - t) * θ / 4)) = θ
    rw [a2, b2]; ring
  · simp only; rw [hpt, a3, segCurve_arc h.notLine]
  · simp only; rw [hpt, b3, segCurve_arc h.notLine]

/-- **C28** points within the tolerance of an end of an arc: at the start the first part is a
zero-length line at the point and the second keeps the bulge; at the end the first part is the
whole arc and the second a zero-length line at the second vertex. -/
theorem C28_split_ends (v1 v2 : Vertex ℝ) (hl : ¬ IsLine v1) (pt : V2 ℝ) (eps : ℝ) :
    let r := segSplitAtPoint v1 v2 pt eps
    ((v1.pos.fuzzyEqEps v2.pos eps = true ∨ v1.pos.fuzzyEqEps pt eps = true) →
      r = ⟨⟨pt.x, pt.y, 0⟩, ⟨pt.x, pt.y, v1.bulge⟩⟩) ∧
    (¬ v1.pos.fuzzyEqEps v2.pos eps = true → ¬ v1.pos.fuzzyEqEps pt eps = true →
      v2.pos.fuzzyEqEps pt eps = true → r = ⟨v1, ⟨v2.x, v2.y, 0⟩⟩) := by
  intro r
  constructor
  · intro h
    show segSplitAtPoint v1 v2 pt eps = _
    unfold segSplitAtPoint
    rw [bulgeIsZero_false hl]
    simp only [Bool.false_eq_true, if_false, Bool.or_eq_true, h, if_true]
  · intro h1 h2 h3
    show segSplitAtPoint v1 v2 pt eps = _
    unfold segSplitAtPoint
    rw [bulgeIsZero_false hl]
    simp only [Bool.false_eq_true, if_false, Bool.or_eq_true, h1, h2, or_self, h3, if_true]

/-- Non-vacuity: the half circle from `(0,0)` to `(2,0)` split in its middle meets all hypotheses. -/
example : ProperArc ⟨0, 0, 1⟩ ⟨2, 0, 0⟩ ∧
    segCurve ⟨0, 0, 1⟩ ⟨2, 0, 0⟩ (1 / 2) = ⟨1, -1⟩ ∧
    ¬ (⟨0, 0⟩ : V2 ℝ).fuzzyEqEps ⟨2, 0⟩ (1 / 100) = true ∧
    ¬ (⟨0, 0⟩ : V2 ℝ).fuzzyEqEps ⟨1, -1⟩ (1 / 100) = true ∧
    ¬ (⟨2, 0⟩ : V2 ℝ).fuzzyEqEps ⟨1, -1⟩ (1 / 100) = true := by
  have hl : ¬ IsLine (⟨0, 0, 1⟩ : Vertex ℝ) := by simp [IsLine]; norm_num
  refine ⟨⟨hl, by norm_num, by simp [V2.ext_iff']⟩, ?_, ?_, ?_, ?_⟩
  · rw [segCurve_arc hl]
    simp only [arcPoint, arcCenter, rotV, Vertex.pos, Real.arctan_one]
    rw [show (1:ℝ) / 2 * (4 * (Real.pi / 4)) = Real.pi / 2 by ring]
    simp
  all_goals
    rw [V2.fuzzyEqEps_iff]
    norm_num

end Cavc
