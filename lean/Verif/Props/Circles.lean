import Verif.Props.LineLine
import Verif.Props.Closest
import Verif.Props.Boxes

/-! # C25, C26: line against circle, circle against circle -/

set_option linter.unusedSectionVars false

namespace Cavc
open RealScalar

/-- `q` is on the circle. -/
def OnCircle (c : V2 ℝ) (r : ℝ) (q : V2 ℝ) : Prop := edist q c = r

/-! ## Circle against circle -/

theorem onCircle_iff {c : V2 ℝ} {r : ℝ} (hr : 0 ≤ r) (q : V2 ℝ) :
    OnCircle c r q ↔ (q.x - c.x) ^ 2 + (q.y - c.y) ^ 2 = r ^ 2 := by
  constructor
  · intro h; rw [← edist_sq, h]
  · intro h; exact edist_eq_of_sq hr h

/-- **C26** What each answer says about the common points of two circles. -/
theorem C26_common_points (r1 : ℝ) (c1 : V2 ℝ) (r2 : ℝ) (c2 : V2 ℝ) (eps : ℝ) (hr1 : 0 ≤ r1) (hr2 : 0 ≤ r2)
    (heps : 0 < eps) :
    match circleCircleIntr r1 c1 r2 c2 eps with
    | .noIntersect => ∀ q, ¬ (OnCircle c1 r1 q ∧ OnCircle c2 r2 q)
    | .tangentIntersect pt => ∀ q, OnCircle c1 r1 q ∧ OnCircle c2 r2 q →
        |q.x - pt.x| < eps ∧ |q.y - pt.y| < eps
    | .twoIntersects p1 p2 => p1 ≠ p2 ∧ ∀ q, (OnCircle c1 r1 q ∧ OnCircle c2 r2 q) ↔ (q = p1 ∨ q = p2)
    | .overlapping => edist c1 c2 < eps ∧ |r1 - r2| < eps := by
  have hd : Real.sqrt ((c2 - c1).dot (c2 - c1)) = edist c1 c2 := length_edist c1 c2
  have hd2 : (c2 - c1).dot (c2 - c1) = edist c1 c2 ^ 2 := by rw [edist_sq, V2.dot_eq]; simp; ring
  have hdn := edist_nonneg c1 c2
  have htri : ∀ q, OnCircle c1 r1 q ∧ OnCircle c2 r2 q →
      edist c1 c2 ≤ r1 + r2 ∧ |r1 - r2| ≤ edist c1 c2 := by
    rintro q ⟨h1, h2⟩
    unfold OnCircle at h1 h2
    have t1 := edist_triangle c1 q c2
    have t2 := edist_triangle q c1 c2
    have t3 := edist_triangle q c2 c1
    rw [edist_comm c1 q, h1, h2] at t1
    rw [h1, h2] at t2 t3
    rw [edist_comm c2 c1] at t3
    exact ⟨t1, by rw [abs_le]; constructor <;> linarith⟩
  unfold circleCircleIntr
  simp only [hd2, sqrt_eq, Real.sqrt_sq hdn, fuzzyEqZeroEps_eq, fuzzyEqEps_eq, fuzzyLtEps_eq, fuzzyGtEps_eq, lt_eq,
    decide_eq_true_eq, abs_of_nonneg hdn, abs_eq, two_eq]
  set d := edist c1 c2 with hdd
  by_cases h1 : d < eps
  · rw [if_pos h1]
    by_cases h2 : |r1 - r2| < eps
    · rw [if_pos h2]; exact ⟨h1, h2⟩
    · rw [if_neg h2]
      intro q hq
      have := (htri q hq).2
      linarith
  rw [if_neg h1]
  push Not at h1
  have hdp : 0 < d := by linarith
  by_cases h2 : (!decide (d < r1 + r2 + eps) || !decide (|r1 - r2| < d + eps)) = true
  · rw [if_pos h2]
    intro q hq
    have := htri q hq
    simp only [Bool.or_eq_true, Bool.not_eq_true', decide_eq_false_iff_not, not_lt] at h2
    rcases h2 with h2 | h2 <;> linarith [this.1, this.2]
  rw [if_neg h2]
  set a := (r1 * r1 - r2 * r2 + d ^ 2) / (2 * d) with ha
  have ha' : 2 * d * a = r1 ^ 2 - r2 ^ 2 + d ^ 2 := by rw [ha]; field_simp
  have hcc : (c2.x - c1.x) ^ 2 + (c2.y - c1.y) ^ 2 = d ^ 2 := by rw [edist_sq]; ring
  -- common points in the frame of the two centers
  have hframe : ∀ q, OnCircle c1 r1 q ∧ OnCircle c2 r2 q ↔
      (((q.x - c1.x) * (c2.x - c1.x) + (q.y - c1.y) * (c2.y - c1.y) = a * d) ∧
       ((q.x - c1.x) * (c2.y - c1.y) - (q.y - c1.y) * (c2.x - c1.x)) ^ 2 = (r1 * r1 - a * a) * d ^ 2) := by
    intro q
    rw [onCircle_iff hr1, onCircle_iff hr2]
    constructor
    · rintro ⟨e1, e2⟩
      have e3 : (q.x - c1.x) * (c2.x - c1.x) + (q.y - c1.y) * (c2.y - c1.y) = a * d := by
        linear_combination (1 / 2) * e1 - (1 / 2) * e2 + (1 / 2) * hcc - (1 / 2) * ha'
      refine ⟨e3, ?_⟩
      linear_combination ((c2.x - c1.x) ^ 2 + (c2.y - c1.y) ^ 2) * e1 + r1 ^ 2 * hcc
        - ((q.x - c1.x) * (c2.x - c1.x) + (q.y - c1.y) * (c2.y - c1.y) + a * d) * e3
    · rintro ⟨e3, e4⟩
      have hd2 : d ^ 2 ≠ 0 := by positivity
      have e1 : (q.x - c1.x) ^ 2 + (q.y - c1.y) ^ 2 = r1 ^ 2 := by
        apply mul_right_cancel₀ hd2
        linear_combination -((q.x - c1.x) ^ 2 + (q.y - c1.y) ^ 2) * hcc + e4
          + ((q.x - c1.x) * (c2.x - c1.x) + (q.y - c1.y) * (c2.y - c1.y) + a * d) * e3
      refine ⟨e1, ?_⟩
      linear_combination e1 - 2 * e3 + hcc - ha'
  by_cases h3 : r1 * r1 - a * a < 0
  · rw [if_pos h3]
    intro q hq
    have := ((hframe q).mp hq).2
    exfalso
    have h4 : 0 ≤ (r1 * r1 - a * a) * d ^ 2 := by rw [← this]; positivity
    have h5 : 0 < d ^ 2 := by positivity
    nlinarith
  rw [if_neg h3]
  push Not at h3
  set h := Real.sqrt (r1 * r1 - a * a) with hh
  have hhs : h ^ 2 = r1 * r1 - a * a := Real.sq_sqrt h3
  have hh0 : 0 ≤ h := Real.sqrt_nonneg _
  set p1 : V2 ℝ := ⟨(c1 + (c2 - c1).scale (a / d)).x + h / d * (c2 - c1).y, (c1 + (c2 - c1).scale (a / d)).y - h / d * (c2 - c1).x⟩ with hp1
  set p2 : V2 ℝ := ⟨(c1 + (c2 - c1).scale (a / d)).x - h / d * (c2 - c1).y, (c1 + (c2 - c1).scale (a / d)).y + h / d * (c2 - c1).x⟩ with hp2
  have hboth : ∀ q, OnCircle c1 r1 q ∧ OnCircle c2 r2 q ↔ q = p1 ∨ q = p2 := by
    intro q
    rw [hframe]
    have hsol : ∀ (q : V2 ℝ) (g : ℝ), ((q.x - c1.x) * (c2.x - c1.x) + (q.y - c1.y) * (c2.y - c1.y) = a * d ∧
        (q.x - c1.x) * (c2.y - c1.y) - (q.y - c1.y) * (c2.x - c1.x) = g * d) ↔
        q = ⟨c1.x + a / d * (c2.x - c1.x) + g / d * (c2.y - c1.y), c1.y + a / d * (c2.y - c1.y) - g / d * (c2.x - c1.x)⟩ := by
      intro q g
      rw [V2.ext_iff']
      have hd2 : d ^ 2 ≠ 0 := by positivity
      constructor
      · rintro ⟨e1, e2⟩
        dsimp only
        have f1 : a * d = a / d * d ^ 2 := by field_simp
        have f2 : g * d = g / d * d ^ 2 := by field_simp
        rw [f1] at e1
        rw [f2] at e2
        constructor
        · apply mul_right_cancel₀ hd2
          linear_combination (c2.x - c1.x) * e1 + (c2.y - c1.y) * e2 - (q.x - c1.x) * hcc
        · apply mul_right_cancel₀ hd2
          linear_combination (c2.y - c1.y) * e1 - (c2.x - c1.x) * e2 - (q.y - c1.y) * hcc
      · rintro ⟨e1, e2⟩
        dsimp only at e1 e2
        rw [e1, e2]
        constructor
        · field_simp; linear_combination a * hcc
        · field_simp; linear_combination g * hcc
    have e1 : p1 = ⟨c1.x + a / d * (c2.x - c1.x) + h / d * (c2.y - c1.y), c1.y + a / d * (c2.y - c1.y) - h / d * (c2.x - c1.x)⟩ := by
      rw [hp1, V2.ext_iff']; simp
    have e2 : p2 = ⟨c1.x + a / d * (c2.x - c1.x) + (-h) / d * (c2.y - c1.y), c1.y + a / d * (c2.y - c1.y) - (-h) / d * (c2.x - c1.x)⟩ := by
      rw [hp2, V2.ext_iff']; simp; constructor <;> ring
    rw [e1, e2, ← hsol, ← hsol, ← and_or_left, ← hhs, ← mul_pow, sq_eq_sq_iff_eq_or_eq_neg, neg_mul]
  by_cases h4 : p1.fuzzyEqEps p2 eps = true
  · rw [if_pos h4]
    rw [V2.fuzzyEqEps_iff] at h4
    intro q hq
    rcases (hboth q).mp hq with rfl | rfl
    · simpa using heps
    · rw [abs_sub_comm, abs_sub_comm p2.y]; exact h4
  · rw [if_neg h4]
    refine ⟨?_, hboth⟩
    intro he
    apply h4
    rw [he, V2.fuzzyEqEps_iff]
    simpa using heps

/-- `C26_common_points` applies to two unit circles with centers `(0, 0)` and `(1, 0)`; they are
reported as two intersects. -/
example : ∃ p1 p2, circleCircleIntr (T := ℝ) 1 ⟨0, 0⟩ 1 ⟨1, 0⟩ (1 / 100000) = .twoIntersects p1 p2 := by
  have hs : Real.sqrt (3 / 4) ^ 2 = 3 / 4 := Real.sq_sqrt (by norm_num)
  have hpos : 0 ≤ Real.sqrt (3 / 4) := Real.sqrt_nonneg _
  have hbig : 1 / 2 ≤ Real.sqrt (3 / 4) := by nlinarith
  unfold circleCircleIntr
  norm_num [V2.dot_eq, V2.fuzzyEqEps, abs_of_pos]
  rw [if_neg]
  · exact ⟨_, _, rfl⟩
  · push Not
    rw [Real.sqrt_div (by norm_num)] at hbig
    rw [abs_of_nonpos (by linarith)]
    linarith

theorem mid_dist {c1 c2 : V2 ℝ} {a : ℝ} (hd : 0 < edist c1 c2) :
    edist (c1 + (c2 - c1).scale (a / edist c1 c2)) c1 = |a| ∧
    edist (c1 + (c2 - c1).scale (a / edist c1 c2)) c2 = |edist c1 c2 - a| := by
  have hcc : (c2.x - c1.x) ^ 2 + (c2.y - c1.y) ^ 2 = edist c1 c2 ^ 2 := by rw [edist_sq]; ring
  constructor
  · apply edist_eq_of_sq (abs_nonneg _)
    rw [sq_abs]
    simp only [V2.add_x, V2.add_y, V2.scale_x, V2.scale_y, V2.sub_x, V2.sub_y]
    have : (a / edist c1 c2) ^ 2 * edist c1 c2 ^ 2 = a ^ 2 := by field_simp
    linear_combination (a / edist c1 c2) ^ 2 * hcc + this
  · apply edist_eq_of_sq (abs_nonneg _)
    rw [sq_abs]
    simp only [V2.add_x, V2.add_y, V2.scale_x, V2.scale_y, V2.sub_x, V2.sub_y]
    have : (1 - a / edist c1 c2) ^ 2 * edist c1 c2 ^ 2 = (edist c1 c2 - a) ^ 2 := by field_simp
    linear_combination (1 - a / edist c1 c2) ^ 2 * hcc + this

/-- **C26** (tangent point) The reported point is within `eps` of both circles, unless one circle
lies inside the other; in every case the error is at most `eps * (r1 + r2 + d) / (2 * d)`, where
`d` is the distance of the centers. -/
theorem C26_tangent_partial (r1 : ℝ) (c1 : V2 ℝ) (r2 : ℝ) (c2 : V2 ℝ) (eps : ℝ) (hr1 : 0 ≤ r1) (hr2 : 0 ≤ r2)
    (heps : 0 < eps) (pt : V2 ℝ) (h : circleCircleIntr r1 c1 r2 c2 eps = .tangentIntersect pt) :
    (|r1 - r2| ≤ edist c1 c2 → |edist pt c1 - r1| ≤ eps ∧ |edist pt c2 - r2| ≤ eps) ∧
    2 * edist c1 c2 * |edist pt c1 - r1| ≤ eps * (r1 + r2 + edist c1 c2) ∧
    2 * edist c1 c2 * |edist pt c2 - r2| ≤ eps * (r1 + r2 + edist c1 c2) := by
  have hd2 : (c2 - c1).dot (c2 - c1) = edist c1 c2 ^ 2 := by rw [edist_sq, V2.dot_eq]; simp; ring
  have hdn := edist_nonneg c1 c2
  unfold circleCircleIntr at h
  simp only [hd2, sqrt_eq, Real.sqrt_sq hdn, fuzzyEqZeroEps_eq, fuzzyEqEps_eq, fuzzyLtEps_eq, fuzzyGtEps_eq, lt_eq,
    decide_eq_true_eq, abs_of_nonneg hdn, abs_eq, two_eq] at h
  by_cases h1 : edist c1 c2 < eps
  · rw [if_pos h1] at h; split_ifs at h
  rw [if_neg h1] at h
  push Not at h1
  have hdp : 0 < edist c1 c2 := by linarith
  have hcc : (c2.x - c1.x) ^ 2 + (c2.y - c1.y) ^ 2 = edist c1 c2 ^ 2 := by rw [edist_sq]; ring
  by_cases h2 : (!decide (edist c1 c2 < r1 + r2 + eps) || !decide (|r1 - r2| < edist c1 c2 + eps)) = true
  · rw [if_pos h2] at h; cases h
  rw [if_neg h2] at h
  simp only [Bool.or_eq_true, Bool.not_eq_true', decide_eq_false_iff_not, not_or, not_not] at h2
  obtain ⟨hext, hint⟩ := h2
  rw [abs_lt] at hint
  have hmid := mid_dist (a := (r1 * r1 - r2 * r2 + edist c1 c2 ^ 2) / (2 * edist c1 c2)) hdp
  set d := edist c1 c2 with hd
  set a := (r1 * r1 - r2 * r2 + d ^ 2) / (2 * d) with ha
  have ha' : 2 * d * a = r1 ^ 2 - r2 ^ 2 + d ^ 2 := by rw [ha]; field_simp
  by_cases h3 : r1 * r1 - a * a < 0
  · rw [if_pos h3] at h
    cases h
    rw [hmid.1, hmid.2]
    have hsq : r1 ^ 2 < |a| ^ 2 := by rw [sq_abs]; nlinarith
    have hbig : r1 < |a| := lt_of_pow_lt_pow_left₀ 2 (abs_nonneg _) hsq
    rw [abs_of_pos (a := |a| - r1) (by linarith)]
    -- which of the three situations
    have hf : (d - r1 - r2) * (d - r1 + r2) = 2 * d * (a - r1) := by rw [mul_sub, ha']; ring
    have hf2 : (r2 - r1 - d) * (r2 + r1 + d) = 2 * d * (-a - r1) := by rw [mul_sub, mul_neg, ha']; ring
    have hg : (d - r1 - r2) * (d + r1 - r2) = 2 * d * (d - a - r2) := by
      linear_combination ha'
    have hg2 : (r1 - r2 - d) * (r1 + r2 + d) = 2 * d * (a - d - r2) := by linear_combination -ha'
    rcases le_or_gt 0 a with hapos | haneg
    · rw [abs_of_nonneg hapos] at hbig ⊢
      have hprod : 0 < (d - r1 - r2) * (d - r1 + r2) := by rw [hf]; have := sub_pos.mpr hbig; positivity
      by_cases hlt : r1 + r2 < d
      · -- apart
        have hda : 0 < d - a - r2 := by
          have h4 : 0 < (d - r1 - r2) * (d + r1 - r2) := mul_pos (by linarith) (by linarith)
          rw [hg] at h4
          exact (mul_pos_iff_of_pos_left (by positivity)).mp h4
        rw [abs_of_pos (a := d - a) (by linarith), abs_of_pos hda]
        have k1 : 2 * d * (a - r1) ≤ 2 * d * eps := by
          rw [← hf, mul_comm (2 * d)]
          exact mul_le_mul (by linarith) (by linarith) (by linarith) heps.le
        have k2 : 2 * d * (d - a - r2) ≤ 2 * d * eps := by
          rw [← hg, mul_comm (2 * d)]
          exact mul_le_mul (by linarith) (by linarith) (by linarith) heps.le
        refine ⟨fun _ => ⟨le_of_mul_le_mul_left k1 (by positivity), le_of_mul_le_mul_left k2 (by positivity)⟩, ?_, ?_⟩
        · rw [← hf]; exact mul_le_mul (by linarith) (by linarith) (by linarith) heps.le
        · rw [← hg]; exact mul_le_mul (by linarith) (by linarith) (by linarith) heps.le
      · -- the second circle inside the first
        have hin : d < r1 - r2 := by
          by_contra hc; push Not at hc
          have : (d - r1 - r2) * (d - r1 + r2) ≤ 0 := mul_nonpos_of_nonpos_of_nonneg (by linarith) (by linarith)
          linarith
        have hda : 0 < a - d - r2 := by
          have h4 : 0 < (r1 - r2 - d) * (r1 + r2 + d) := mul_pos (by linarith) (by linarith)
          rw [hg2] at h4
          exact (mul_pos_iff_of_pos_left (by positivity)).mp h4
        rw [abs_of_neg (a := d - a) (by linarith), show -(d - a) - r2 = a - d - r2 by ring, abs_of_pos hda]
        refine ⟨fun hc => ?_, ?_, ?_⟩
        · exfalso; rw [abs_of_pos (by linarith)] at hc; linarith
        · rw [← hf, show (d - r1 - r2) * (d - r1 + r2) = (r1 - r2 - d) * (r1 + r2 - d) by ring]
          exact mul_le_mul (by linarith) (by linarith) (by linarith) heps.le
        · rw [← hg2]; exact mul_le_mul (by linarith) (by linarith) (by linarith) heps.le
    · rw [abs_of_neg haneg] at hbig ⊢
      have hin : d < r2 - r1 := by
        have h4 : 0 < (r2 - r1 - d) * (r2 + r1 + d) := by rw [hf2]; have := sub_pos.mpr hbig; positivity
        by_contra hc; push Not at hc
        have : (r2 - r1 - d) * (r2 + r1 + d) ≤ 0 := mul_nonpos_of_nonpos_of_nonneg (by linarith) (by linarith)
        linarith
      have hda : 0 ≤ d - a - r2 := by
        have h4 : 0 ≤ (d - r1 - r2) * (d + r1 - r2) := mul_nonneg_of_nonpos_of_nonpos (by linarith) (by linarith)
        rw [hg] at h4
        exact nonneg_of_mul_nonneg_right h4 (by positivity)
      rw [abs_of_pos (a := d - a) (by linarith), abs_of_nonneg hda]
      refine ⟨fun hc => ?_, ?_, ?_⟩
      · exfalso; rw [abs_of_neg (by linarith)] at hc; linarith
      · rw [← hf2]; exact mul_le_mul (by linarith) (by linarith) (by linarith) heps.le
      · rw [← hg, show (d - r1 - r2) * (d + r1 - r2) = (r2 - r1 - d) * (r1 + r2 - d) by ring]
        exact mul_le_mul (by linarith) (by linarith) (by linarith) heps.le
  · rw [if_neg h3] at h
    push Not at h3
    split_ifs at h with h4
    cases h
    -- this one is on both circles
    have hhs : Real.sqrt (r1 * r1 - a * a) ^ 2 = r1 * r1 - a * a := Real.sq_sqrt h3
    set g := Real.sqrt (r1 * r1 - a * a)
    have key : ∀ k : ℝ, (k - a / d) ^ 2 * d ^ 2 = (k * d - a) ^ 2 := by intro k; field_simp
    have hgd : (g / d) ^ 2 * d ^ 2 = r1 * r1 - a * a := by rw [← hhs]; field_simp
    have e1 : edist (⟨(c1 + (c2 - c1).scale (a / d)).x + g / d * (c2 - c1).y,
        (c1 + (c2 - c1).scale (a / d)).y - g / d * (c2 - c1).x⟩ : V2 ℝ) c1 = r1 := by
      apply edist_eq_of_sq hr1
      simp only [V2.add_x, V2.add_y, V2.scale_x, V2.scale_y, V2.sub_x, V2.sub_y]
      linear_combination ((a / d) ^ 2 + (g / d) ^ 2) * hcc + key 0 + hgd
    have e2 : edist (⟨(c1 + (c2 - c1).scale (a / d)).x + g / d * (c2 - c1).y,
        (c1 + (c2 - c1).scale (a / d)).y - g / d * (c2 - c1).x⟩ : V2 ℝ) c2 = r2 := by
      apply edist_eq_of_sq hr2
      simp only [V2.add_x, V2.add_y, V2.scale_x, V2.scale_y, V2.sub_x, V2.sub_y]
      linear_combination ((1 - a / d) ^ 2 + (g / d) ^ 2) * hcc + key 1 + hgd - ha'
    rw [e1, e2]
    simp only [sub_self, abs_zero, mul_zero]
    exact ⟨fun _ => ⟨heps.le, heps.le⟩, by positivity, by positivity⟩

/-- Disagreement: two almost equal circles, one inside the other, with centers `1e-5` apart.  The
circles have radius 100 and 99.999982 and no common point; a tangent point is reported more than 170
away from the center, 70 off both circles. -/
theorem C26_tangent_witness :
    ∃ pt, circleCircleIntr (T := ℝ) 100 ⟨0, 0⟩ (100 - 18 / 1000000) ⟨1 / 100000, 0⟩ (1 / 100000)
      = .tangentIntersect pt ∧ 170 < edist pt ⟨0, 0⟩ := by
  have hd : Real.sqrt (V2.dot ((⟨1 / 100000, 0⟩ : V2 ℝ) - ⟨0, 0⟩) ((⟨1 / 100000, 0⟩ : V2 ℝ) - ⟨0, 0⟩)) = 1 / 100000 := by
    rw [Real.sqrt_eq_iff_mul_self_eq_of_pos (by norm_num), V2.dot_eq]; simp
  unfold circleCircleIntr
  simp only [sqrt_eq, hd]
  norm_num [V2.dot_eq, V2.fuzzyEqEps, abs_of_pos]
  refine lt_of_lt_of_le ?_ (Real.le_sqrt_of_sq_le (x := 171) ?_)
  · norm_num
  · norm_num

/-! ## Line against circle -/

/-- the part of `lineCircleIntr` after the line's equation has been set up -/
noncomputable def lineCircleTail (p0 p1 : V2 ℝ) (r : ℝ) (cc : V2 ℝ) (eps a b c : ℝ) : LineCircleIntr ℝ :=
  if r + eps < |c| / Real.sqrt (a * a + b * b) then .noIntersect
  else if |(|c| / Real.sqrt (a * a + b * b) - r)| < eps then
    .tangentIntersect (parametricFromPoint p0 p1 ⟨-a * c / (a * a + b * b) + cc.x, -b * c / (a * a + b * b) + cc.y⟩)
  else
    let m := Real.sqrt |((r * r - c * c / (a * a + b * b)) / (a * a + b * b))|
    let s1 := parametricFromPoint p0 p1 ⟨-a * c / (a * a + b * b) + cc.x + b * m, -b * c / (a * a + b * b) + cc.y - a * m⟩
    let s2 := parametricFromPoint p0 p1 ⟨-a * c / (a * a + b * b) + cc.x - b * m, -b * c / (a * a + b * b) + cc.y + a * m⟩
    let ts := minMax s1 s2
    .twoIntersects ts.1 ts.2

theorem parametric_linePoint {p q : V2 ℝ} (h : p ≠ q) (t : ℝ) : parametricFromPoint p q (linePoint p q t) = t := by
  have hc : dirCross p q p (linePoint p q t) = 0 := by unfold dirCross linePoint; ring
  have h1 := parametric_on_line h hc
  have h2 := edist_linePoint p q t (parametricFromPoint p q (linePoint p q t))
  rw [← h1, edist_self] at h2
  have := edist_pos h
  have h3 : |t - parametricFromPoint p q (linePoint p q t)| = 0 := by
    rcases mul_eq_zero.mp h2.symm with h | h
    · exact h
    · linarith
  linarith [abs_eq_zero.mp h3]

theorem lineCircleTail_spec {p0 p1 : V2 ℝ} {r : ℝ} {cc : V2 ℝ} {eps a b c κ : ℝ} (hr : 0 ≤ r) (heps : 0 < eps)
    (hn : 0 < a * a + b * b) (hκ : κ ≠ 0) (hdx : p1.x - p0.x = κ * b) (hdy : p1.y - p0.y = -κ * a)
    (hl : a * (p0.x - cc.x) + b * (p0.y - cc.y) + c = 0) :
    match lineCircleTail p0 p1 r cc eps a b c with
    | .noIntersect => ∀ t, r + eps < edist (linePoint p0 p1 t) cc
    | .tangentIntersect t => |edist (linePoint p0 p1 t) cc - r| < eps ∧
        ∀ t', edist (linePoint p0 p1 t) cc ≤ edist (linePoint p0 p1 t') cc
    | .twoIntersects t0 t1 => ((∃ t, edist (linePoint p0 p1 t) cc < r + eps) →
        t0 < t1 ∧ ∀ t, OnCircle cc r (linePoint p0 p1 t) ↔ t = t0 ∨ t = t1) ∧
        ∀ t, t = t0 ∨ t = t1 → |edist (linePoint p0 p1 t) cc - r| ≤ 2 * eps := by
  set n := a * a + b * b with hnd
  have hne : p0 ≠ p1 := by
    rintro rfl
    rw [sub_self] at hdx hdy
    have hb : b = 0 := by rcases mul_eq_zero.mp hdx.symm with h | h; exacts [absurd h hκ, h]
    have ha : a = 0 := by
      rcases mul_eq_zero.mp hdy.symm with h | h
      · exact absurd (neg_eq_zero.mp h) hκ
      · exact h
    rw [hnd, ha, hb] at hn; simp at hn
  set sd := |c| / Real.sqrt n with hsd
  have hsd0 : 0 ≤ sd := by positivity
  have hsdsq : sd ^ 2 = c * c / n := by
    rw [hsd, div_pow, sq_abs, Real.sq_sqrt hn.le, sq]
  -- the foot of the perpendicular, and the line in its frame
  set μ := (b * (p0.x - cc.x) - a * (p0.y - cc.y)) / n with hμ
  have hP : ∀ t, linePoint p0 p1 t = ⟨-a * c / n + cc.x + b * (μ + κ * t), -b * c / n + cc.y - a * (μ + κ * t)⟩ := by
    intro t
    rw [V2.ext_iff']
    have hc : c = -(a * (p0.x - cc.x) + b * (p0.y - cc.y)) := by linarith
    have hnn : n ≠ 0 := hn.ne'
    simp only [linePoint, hdx, hdy, hμ]
    constructor
    · field_simp
      rw [hc, hnd]; ring
    · field_simp
      rw [hc, hnd]; ring
  have hpt : ∀ l, (⟨-a * c / n + cc.x + b * l, -b * c / n + cc.y - a * l⟩ : V2 ℝ) = linePoint p0 p1 ((l - μ) / κ) := by
    intro l; rw [hP]
    have : μ + κ * ((l - μ) / κ) = l := by field_simp; ring
    rw [this]
  have hdist : ∀ t, edist (linePoint p0 p1 t) cc ^ 2 = sd ^ 2 + n * (μ + κ * t) ^ 2 := by
    intro t
    rw [edist_sq, hP, hsdsq]
    dsimp only
    have hnn : n ≠ 0 := hn.ne'
    field_simp
    rw [hnd]; ring
  have hge : ∀ t, sd ≤ edist (linePoint p0 p1 t) cc := by
    intro t
    apply le_of_sq_le' _ (edist_nonneg _ _)
    rw [hdist]
    have : 0 ≤ n * (μ + κ * t) ^ 2 := by positivity
    linarith
  have hfoot : edist (linePoint p0 p1 (-μ / κ)) cc = sd := by
    have h1 := hdist (-μ / κ)
    have : μ + κ * (-μ / κ) = 0 := by field_simp; ring
    rw [this] at h1
    have h2 : edist (linePoint p0 p1 (-μ / κ)) cc ^ 2 = sd ^ 2 := by rw [h1]; ring
    exact (pow_left_inj₀ (edist_nonneg _ _) hsd0 (by norm_num)).mp h2
  unfold lineCircleTail
  rw [← hnd, ← hsd]
  by_cases h1 : r + eps < sd
  · rw [if_pos h1]
    intro t
    exact lt_of_lt_of_le h1 (hge t)
  rw [if_neg h1]
  push Not at h1
  by_cases h2 : |sd - r| < eps
  · rw [if_pos h2]
    have hp : parametricFromPoint p0 p1 (⟨-a * c / n + cc.x, -b * c / n + cc.y⟩ : V2 ℝ) = -μ / κ := by
      have h0 := hpt 0
      rw [mul_zero, mul_zero, add_zero, sub_zero, zero_sub] at h0
      rw [h0, parametric_linePoint hne]
    dsimp only
    rw [hp, hfoot]
    exact ⟨h2, hge⟩
  · rw [if_neg h2]
    dsimp only
    by_cases heq : sd = r + eps
    · -- the boundary: the line is exactly `r + eps` away
      refine ⟨fun ⟨t, ht⟩ => absurd (hge t) (by linarith), ?_⟩
      have hneg : (r * r - c * c / n) / n ≤ 0 := by
        apply div_nonpos_of_nonpos_of_nonneg _ hn.le
        rw [← hsdsq, heq]; nlinarith
      rw [abs_of_nonpos hneg]
      set m := Real.sqrt (-((r * r - c * c / n) / n)) with hm
      have hms : n * m ^ 2 = sd ^ 2 - r ^ 2 := by
        rw [hm, Real.sq_sqrt (by linarith), hsdsq]; field_simp; ring
      have hs1 : parametricFromPoint p0 p1 (⟨-a * c / n + cc.x + b * m, -b * c / n + cc.y - a * m⟩ : V2 ℝ) = (m - μ) / κ := by
        rw [hpt m, parametric_linePoint hne]
      have hs2 : parametricFromPoint p0 p1 (⟨-a * c / n + cc.x - b * m, -b * c / n + cc.y + a * m⟩ : V2 ℝ) = (-m - μ) / κ := by
        have h0 := hpt (-m)
        rw [mul_neg, mul_neg, sub_neg_eq_add, ← sub_eq_add_neg] at h0
        rw [h0, parametric_linePoint hne]
      rw [hs1, hs2, minMax_eq]
      have key : ∀ t, (μ + κ * t) ^ 2 = m ^ 2 → |edist (linePoint p0 p1 t) cc - r| ≤ 2 * eps := by
        intro t ht
        have h4 := hdist t
        rw [ht, hms, heq] at h4
        have hlow : r ≤ edist (linePoint p0 p1 t) cc := by linarith [hge t]
        rw [abs_of_nonneg (by linarith), sub_le_iff_le_add]
        apply le_of_sq_le' _ (by linarith)
        rw [h4]; nlinarith
      intro t ht
      apply key
      have h5 : t = (m - μ) / κ ∨ t = (-m - μ) / κ := by
        dsimp only at ht
        rcases ht with rfl | rfl
        · exact min_choice _ _
        · exact max_choice _ _
      rcases h5 with rfl | rfl
      · congr 1; field_simp; ring
      · rw [← neg_sq m]; congr 1; field_simp; ring
    have hlt : sd < r + eps := lt_of_le_of_ne h1 heq
    have hle : sd ≤ r - eps := by
      by_contra hc
      push Not at hc
      exact h2 (abs_lt.mpr ⟨by linarith, by linarith⟩)
    have hpos : 0 < (r * r - c * c / n) / n := by
      apply div_pos _ hn
      rw [← hsdsq]; nlinarith
    rw [abs_of_pos hpos]
    set m := Real.sqrt ((r * r - c * c / n) / n) with hm
    have hm0 : 0 < m := Real.sqrt_pos.mpr hpos
    have hms : n * m ^ 2 = r ^ 2 - sd ^ 2 := by
      rw [hm, Real.sq_sqrt hpos.le, hsdsq]; field_simp
    have hs1 : parametricFromPoint p0 p1 (⟨-a * c / n + cc.x + b * m, -b * c / n + cc.y - a * m⟩ : V2 ℝ) = (m - μ) / κ := by
      rw [hpt m, parametric_linePoint hne]
    have hs2 : parametricFromPoint p0 p1 (⟨-a * c / n + cc.x - b * m, -b * c / n + cc.y + a * m⟩ : V2 ℝ) = (-m - μ) / κ := by
      have h0 := hpt (-m)
      rw [mul_neg, mul_neg, sub_neg_eq_add, ← sub_eq_add_neg] at h0
      rw [h0, parametric_linePoint hne]
    rw [hs1, hs2]
    have hsol : ∀ t, OnCircle cc r (linePoint p0 p1 t) ↔ t = (m - μ) / κ ∨ t = (-m - μ) / κ := by
      intro t
      have h3 : OnCircle cc r (linePoint p0 p1 t) ↔ (μ + κ * t) ^ 2 = m ^ 2 := by
        constructor
        · intro h
          have h4 := hdist t
          unfold OnCircle at h
          rw [h] at h4
          apply mul_left_cancel₀ hn.ne'
          linarith
        · intro h
          have h4 := hdist t
          rw [h, hms] at h4
          apply (pow_left_inj₀ (edist_nonneg _ _) hr (by norm_num : (2 : ℕ) ≠ 0)).mp
          linarith
      rw [h3, sq_eq_sq_iff_eq_or_eq_neg, eq_div_iff hκ, eq_div_iff hκ]
      constructor
      · rintro (h | h)
        · left; linarith
        · right; linarith
      · rintro (h | h)
        · left; linarith
        · right; linarith
    have hneq : (m - μ) / κ ≠ (-m - μ) / κ := by
      intro h; rw [div_left_inj' hκ] at h; linarith
    rw [minMax_eq]
    dsimp only
    have hfin : min ((m - μ) / κ) ((-m - μ) / κ) < max ((m - μ) / κ) ((-m - μ) / κ) ∧
        ∀ t, OnCircle cc r (linePoint p0 p1 t) ↔ t = min ((m - μ) / κ) ((-m - μ) / κ) ∨ t = max ((m - μ) / κ) ((-m - μ) / κ) := by
      rcases lt_or_gt_of_ne hneq with h | h
      · rw [min_eq_left h.le, max_eq_right h.le]; exact ⟨h, hsol⟩
      · rw [min_eq_right h.le, max_eq_left h.le]
        exact ⟨h, fun t => by rw [hsol, or_comm]⟩
    refine ⟨fun _ => hfin, fun t ht => ?_⟩
    have := (hfin.2 t).mpr ht
    unfold OnCircle at this
    rw [this, sub_self, abs_zero]; linarith

/-- **C25** What each answer says about the points where a line meets a circle.  No intersect: every
point of the line is farther than `r + eps` from the center.  Tangent: the reported point is the
line's nearest point to the center and within `eps` of the circle.  Two intersects: exactly the
line's points on the circle, in parameter order.  The line is vertical or its ends differ by at least the default epsilon
in x. -/
theorem C25_line_circle (p0 p1 : V2 ℝ) (r : ℝ) (cc : V2 ℝ) (eps : ℝ) (hr : 0 ≤ r) (heps : 0 < eps)
    (hp : Apart p0 p1 eps) (hdx : p0.x = p1.x ∨ 1 / 100000000 ≤ |p1.x - p0.x|) :
    match lineCircleIntr p0 p1 r cc eps with
    | .noIntersect => ∀ t, r + eps < edist (linePoint p0 p1 t) cc
    | .tangentIntersect t => |edist (linePoint p0 p1 t) cc - r| < eps ∧
        ∀ t', edist (linePoint p0 p1 t) cc ≤ edist (linePoint p0 p1 t') cc
    | .twoIntersects t0 t1 => ((∃ t, edist (linePoint p0 p1 t) cc < r + eps) →
        t0 < t1 ∧ ∀ t, OnCircle cc r (linePoint p0 p1 t) ↔ t = t0 ∨ t = t1) ∧
        ∀ t, t = t0 ∨ t = t1 → |edist (linePoint p0 p1 t) cc - r| ≤ 2 * eps := by
  have hne := apart_ne heps hp
  have hf := (apart_iff _ _ _).mpr hp
  by_cases hv : p0.x = p1.x
  · have hy : p1.y - p0.y ≠ 0 := by
      intro h; apply hne; rw [V2.ext_iff']; exact ⟨hv, by linarith⟩
    have hval : lineCircleIntr p0 p1 r cc eps = lineCircleTail p0 p1 r cc eps 1 0 (-(p0.x - cc.x)) := by
      unfold lineCircleIntr lineCircleTail
      have hz : Scalar.fuzzyEqZero (p1.x - p0.x) = true := by
        rw [fuzzyEqZero_eq, hv]; norm_num
      have he : (p1 - cc).x + (p0 - cc).x = 2 * (p0.x - cc.x) := by simp [hv]; ring
      have he2 : 2 * (p0.x - cc.x) / 2 = p0.x - cc.x := by ring
      simp only [hf, Bool.false_eq_true, if_false, hz, if_true, he, he2, two_eq, gt_eq, decide_eq_true_eq, abs_eq, sqrt_eq, fuzzyEqEps_eq]
    rw [hval]
    exact lineCircleTail_spec (κ := -(p1.y - p0.y)) hr heps (by norm_num) (neg_ne_zero.mpr hy)
      (by rw [hv]; ring) (by ring) (by ring)
  · have hx : 1 / 100000000 ≤ |p1.x - p0.x| := by
      rcases hdx with h | h
      · exact absurd h hv
      · exact h
    have hx0 : p1.x - p0.x ≠ 0 := by
      intro h; apply hv; linarith
    have hval : lineCircleIntr p0 p1 r cc eps = lineCircleTail p0 p1 r cc eps
        ((p1.y - p0.y) / (p1.x - p0.x)) (-1)
        ((p1 - cc).y - (p1.y - p0.y) / (p1.x - p0.x) * (p1 - cc).x) := by
      unfold lineCircleIntr lineCircleTail
      have hz : Scalar.fuzzyEqZero (p1.x - p0.x) = false := by
        rw [fuzzyEqZero_eq]; exact decide_eq_false (not_lt.mpr hx)
      simp only [hf, Bool.false_eq_true, if_false, hz, two_eq, gt_eq, decide_eq_true_eq, abs_eq, sqrt_eq, fuzzyEqEps_eq]
    rw [hval]
    refine lineCircleTail_spec (κ := -(p1.x - p0.x)) hr heps (by nlinarith [sq_nonneg ((p1.y - p0.y) / (p1.x - p0.x))]) (neg_ne_zero.mpr hx0) (by ring) ?_ ?_
    · field_simp
    · simp only [V2.sub_x, V2.sub_y]; field_simp; ring

/-- **C25** (the line is a single point up to the tolerance) -/
theorem C25_point (p0 p1 : V2 ℝ) (r : ℝ) (cc : V2 ℝ) (eps : ℝ) (hx : |p0.x - p1.x| < eps) (hy : |p0.y - p1.y| < eps) :
    lineCircleIntr p0 p1 r cc eps =
      if |edist (linePoint p0 p1 (1 / 2)) cc ^ 2 - r ^ 2| < eps then .tangentIntersect 0 else .noIntersect := by
  have hf : p0.fuzzyEqEps p1 eps = true := by rw [V2.fuzzyEqEps_iff]; exact ⟨hx, hy⟩
  unfold lineCircleIntr
  simp only [hf, if_true, two_eq, fuzzyEqEps_eq, decide_eq_true_eq]
  have : ((p0.x + p1.x) / 2 - cc.x) * ((p0.x + p1.x) / 2 - cc.x) + ((p0.y + p1.y) / 2 - cc.y) * ((p0.y + p1.y) / 2 - cc.y) - r * r
      = edist (linePoint p0 p1 (1 / 2)) cc ^ 2 - r ^ 2 := by
    rw [edist_sq]; simp only [linePoint]; ring
  rw [this]

/-- `C25_line_circle` applies: the x axis and the unit circle. -/
example : Apart (⟨-2, 0⟩ : V2 ℝ) ⟨2, 0⟩ (1 / 100000) ∧
    ((-2 : ℝ) = 2 ∨ 1 / 100000000 ≤ |(2 : ℝ) - -2|) ∧
    ∃ t, edist (linePoint ⟨-2, 0⟩ ⟨2, 0⟩ t) ⟨0, 0⟩ < 1 + 1 / 100000 := by
  refine ⟨by norm_num [Apart], by norm_num, 1 / 2, ?_⟩
  have : edist (linePoint ⟨-2, 0⟩ ⟨2, 0⟩ (1 / 2)) ⟨0, 0⟩ = 0 := edist_eq_of_sq (le_refl _) (by norm_num [linePoint])
  rw [this]; norm_num

end Cavc
