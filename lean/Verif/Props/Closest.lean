import Verif.Lemmas.ArcBox
import Verif.Lemmas.Segs

/-! # C32, C13: closest points -/

set_option linter.unusedSectionVars false

namespace Cavc
open RealScalar Pline

/-! ## Lines -/

/-- **C32** (line segments) The returned point is on the segment, and its squared distance exceeds
the smallest one by at most `2e-8` (the code compares projections with the tolerance `1e-8`). -/
theorem C32_line (v1 v2 : Vertex ℝ) (h : IsLine v1) (pt : V2 ℝ) (eps : ℝ) :
    OnSeg v1 v2 (segClosestPoint v1 v2 pt eps) ∧
    ∀ q, OnSeg v1 v2 q →
      edist pt (segClosestPoint v1 v2 pt eps) ^ 2 ≤ edist pt q ^ 2 + 2 / 100000000 := by
  have hres : segClosestPoint v1 v2 pt eps = lineSegClosestPoint v1.pos v2.pos pt := by
    unfold segClosestPoint; rw [bulgeIsZero_true h]; rfl
  rw [hres]
  set c1 := (pt.x - v1.x) * (v2.x - v1.x) + (pt.y - v1.y) * (v2.y - v1.y) with hc1
  set c2 := (v2.x - v1.x) ^ 2 + (v2.y - v1.y) ^ 2 with hc2
  have hf : ∀ t, edist pt (linePoint v1.pos v2.pos t) ^ 2
      = (pt.x - v1.x) ^ 2 + (pt.y - v1.y) ^ 2 - 2 * t * c1 + t ^ 2 * c2 := by
    intro t
    rw [edist_sq]
    simp only [linePoint, Vertex.pos_x, Vertex.pos_y, hc1, hc2]
    ring
  have hc2n : 0 ≤ c2 := by positivity
  have hsel : ∃ t, 0 ≤ t ∧ t ≤ 1 ∧ lineSegClosestPoint v1.pos v2.pos pt = linePoint v1.pos v2.pos t ∧
      ∀ s, 0 ≤ s → s ≤ 1 → -2 * t * c1 + t ^ 2 * c2 ≤ -2 * s * c1 + s ^ 2 * c2 + 2 / 100000000 := by
    have e1 : (pt - v1.pos).dot (v2.pos - v1.pos) = c1 := by rw [V2.dot_eq]; simp [hc1]
    have e2 : (v2.pos - v1.pos).lengthSquared = c2 := by rw [V2.lengthSquared_eq]; simp [hc2]
    unfold lineSegClosestPoint
    simp only [e1, e2, lt_eq, decide_eq_true_eq, fuzzyEps_eq]
    split_ifs with h1 h2
    · refine ⟨0, le_refl _, zero_le_one, by rw [V2.ext_iff']; simp [linePoint], ?_⟩
      intro s hs0 hs1
      have : 0 ≤ s ^ 2 * c2 := by positivity
      nlinarith
    · refine ⟨1, zero_le_one, le_refl _, by rw [V2.ext_iff']; simp [linePoint], ?_⟩
      intro s hs0 hs1
      have h3 : (1 - s) * (c2 * (1 + s) - 2 * c1) ≤ 2 / 100000000 := by
        have h4 : c2 * (1 + s) - 2 * c1 ≤ 2 / 100000000 := by nlinarith
        rcases le_total 0 (c2 * (1 + s) - 2 * c1) with h5 | h5
        · nlinarith
        · have := mul_nonneg (sub_nonneg.mpr hs1) (neg_nonneg.mpr h5)
          nlinarith
      nlinarith
    · push Not at h1 h2
      have hpos : 0 < c2 := by linarith
      refine ⟨c1 / c2, div_nonneg (by linarith) hc2n, (div_le_one hpos).mpr (by linarith), ?_, ?_⟩
      · rw [V2.ext_iff']; simp [linePoint]
      · intro s hs0 hs1
        have e : -2 * (c1 / c2) * c1 + (c1 / c2) ^ 2 * c2 = -(c1 ^ 2 / c2) := by
          field_simp; ring
        rw [e]
        have : 0 ≤ c2 * (s - c1 / c2) ^ 2 := by positivity
        have e2 : c2 * (s - c1 / c2) ^ 2 = -2 * s * c1 + s ^ 2 * c2 + c1 ^ 2 / c2 := by
          field_simp; ring
        linarith
  obtain ⟨t, ht0, ht1, he, hopt⟩ := hsel
  rw [he]
  constructor
  · exact ⟨t, ht0, ht1, (segCurve_line h t).symm⟩
  · rintro q ⟨s, hs0, hs1, rfl⟩
    rw [segCurve_line h, hf, hf]
    have := hopt s hs0 hs1
    linarith

/-! ## Arcs -/

theorem exists_rep (a : ℝ) : ∃ b, AngleCongr b a ∧ 0 ≤ b ∧ b < 2 * Real.pi := by
  have hpi := Real.pi_pos
  by_cases h : a = 2 * Real.pi
  · exact ⟨0, ⟨-1, by push_cast; linarith⟩, le_refl _, by linarith⟩
  · obtain ⟨h1, h2, _, h4⟩ := C34_normalize_radians a
    exact ⟨_, h1, h2, h4 h⟩

theorem pt_polar {c pt : V2 ℝ} (h : pt ≠ c) : ∃ ρ β, 0 < ρ ∧ ρ = edist pt c ∧
    pt = ⟨c.x + ρ * Real.cos β, c.y + ρ * Real.sin β⟩ := by
  obtain ⟨ρ, h0, h1, h2, h3⟩ := polar_form (pt.x - c.x) (pt.y - c.y)
  have hρ : ρ = edist pt c := (edist_eq_of_sq h0 h1.symm).symm
  refine ⟨ρ, (⟨pt.x - c.x, pt.y - c.y⟩ : ℂ).arg, ?_, hρ, ?_⟩
  · rw [hρ]; exact edist_pos h
  · rw [V2.ext_iff']
    constructor
    · show pt.x = c.x + _
      rw [← h2]; ring
    · show pt.y = c.y + _
      rw [← h3]; ring

theorem le_of_sq_le' {a b : ℝ} (h : a ^ 2 ≤ b ^ 2) (hb : 0 ≤ b) : a ≤ b :=
  le_trans (le_abs_self a) (abs_le_of_sq_le_sq h hb)

/-- the two sweep tests for a counter clockwise arc -/
theorem ccw_sweep {p q : V2 ℝ} {b : ℝ} (hne : p ≠ q) (hb0 : 0 < b) (hb1 : b ≤ 1) {pt : V2 ℝ}
    (hpt : pt ≠ arcCenter p q b) :
    ((0 ≤ perpDotTestValue (arcCenter p q b) p pt ∧ perpDotTestValue (arcCenter p q b) q pt ≤ 0) →
      ∃ t, 0 ≤ t ∧ t ≤ 1 ∧ arcPoint p q b t =
        ⟨(arcCenter p q b).x + arcRadius p q b * ((pt.x - (arcCenter p q b).x) / edist pt (arcCenter p q b)),
         (arcCenter p q b).y + arcRadius p q b * ((pt.y - (arcCenter p q b).y) / edist pt (arcCenter p q b))⟩) ∧
    ((perpDotTestValue (arcCenter p q b) p pt < 0 ∨ 0 < perpDotTestValue (arcCenter p q b) q pt) →
      ∀ t, 0 ≤ t → t ≤ 1 →
        edist pt p ≤ edist pt (arcPoint p q b t) ∨ edist pt q ≤ edist pt (arcPoint p q b t)) := by
  have hb := hb0.ne'
  have hr := arcRadius_pos hne hb
  have hpol := fun t => arcPoint_polar (p := p) (q := q) hb t
  have hθ := abs_four_arctan_le (b := b) (by rw [abs_of_pos hb0]; exact hb1)
  have hstart := hpol 0
  have hend := hpol 1
  rw [arcPoint_zero, zero_mul, add_zero] at hstart
  rw [arcPoint_one _ _ _ hb, one_mul] at hend
  obtain ⟨ρ, β, hρ, hρe, hptp⟩ := pt_polar hpt
  have hpi := Real.pi_pos
  have hθ0 : 0 < 4 * Real.arctan b := by have := Real.arctan_pos.mpr hb0; linarith
  rw [abs_of_pos hθ0] at hθ
  rw [← hρe]
  set A := angle (arcCenter p q b) p
  set θ := 4 * Real.arctan b
  set r := arcRadius p q b
  set c := arcCenter p q b
  have hpx : p.x = c.x + r * Real.cos A := congrArg V2.x hstart
  have hpy : p.y = c.y + r * Real.sin A := congrArg V2.y hstart
  have hqx : q.x = c.x + r * Real.cos (A + θ) := congrArg V2.x hend
  have hqy : q.y = c.y + r * Real.sin (A + θ) := congrArg V2.y hend
  have htx : pt.x = c.x + ρ * Real.cos β := congrArg V2.x hptp
  have hty : pt.y = c.y + ρ * Real.sin β := congrArg V2.y hptp
  obtain ⟨γ, hγc, hγ0, hγ1⟩ := exists_rep (β - A)
  obtain ⟨k, hk⟩ := hγc
  have d1 : perpDotTestValue c p pt = r * ρ * Real.sin γ := by
    have : Real.sin γ = Real.sin (β - A) := sin_congr ⟨k, hk⟩
    rw [this, Real.sin_sub]
    unfold perpDotTestValue
    rw [hpx, hpy, htx, hty]; ring
  have d2 : perpDotTestValue c q pt = r * ρ * Real.sin (γ - θ) := by
    have : Real.sin (γ - θ) = Real.sin (β - (A + θ)) := sin_congr ⟨k, by linarith⟩
    rw [this, Real.sin_sub]
    unfold perpDotTestValue
    rw [hqx, hqy, htx, hty]; ring
  have hrρ : 0 < r * ρ := by positivity
  constructor
  · rintro ⟨h1, h2⟩
    rw [d1] at h1
    rw [d2] at h2
    have s1 : 0 ≤ Real.sin γ := by
      by_contra hc; push Not at hc; nlinarith
    have s2 : Real.sin (γ - θ) ≤ 0 := by
      by_contra hc; push Not at hc; nlinarith
    have hγπ : γ ≤ Real.pi := by
      by_contra hc; push Not at hc
      have := Real.sin_neg_of_neg_of_neg_pi_lt (x := γ - 2 * Real.pi) (by linarith) (by linarith)
      rw [Real.sin_sub_two_pi] at this
      linarith
    have hγθ : γ ≤ θ := by
      by_contra hc; push Not at hc
      have := Real.sin_pos_of_pos_of_lt_pi (x := γ - θ) (by linarith) (by linarith)
      linarith
    refine ⟨γ / θ, by positivity, (div_le_one hθ0).mpr hγθ, ?_⟩
    rw [hpol, div_mul_cancel₀ _ hθ0.ne']
    have e1 : Real.cos (A + γ) = Real.cos β := cos_congr ⟨k, by linarith⟩
    have e2 : Real.sin (A + γ) = Real.sin β := sin_congr ⟨k, by linarith⟩
    rw [e1, e2, htx, hty]
    have ex : (c.x + ρ * Real.cos β - c.x) / ρ = Real.cos β := by field_simp; ring
    have ey : (c.y + ρ * Real.sin β - c.y) / ρ = Real.sin β := by field_simp; ring
    rw [ex, ey]
  · intro h t ht0 ht1
    have hγθ : θ < γ := by
      by_contra hc; push Not at hc
      rcases h with h | h
      · rw [d1] at h
        have := Real.sin_nonneg_of_nonneg_of_le_pi hγ0 (by linarith)
        have := mul_nonneg hrρ.le this
        linarith
      · rw [d2] at h
        have := Real.sin_nonpos_of_nonpos_of_neg_pi_le (x := γ - θ) (by linarith) (by linarith)
        have := mul_nonneg hrρ.le (neg_nonneg.mpr this)
        linarith
    have hcos : ∀ u, Real.cos (A + u - β) = Real.cos (2 * Real.pi - γ + u) := by
      intro u; exact cos_congr ⟨k - 1, by push_cast; linarith⟩
    have hmax := cos_le_max (a := 2 * Real.pi - γ) (b := 2 * Real.pi - γ + θ)
      (x := 2 * Real.pi - γ + t * θ) (by linarith) (by nlinarith) (by nlinarith) (by linarith)
    rw [← hcos θ, ← hcos (t * θ)] at hmax
    have h0 := hcos 0
    rw [add_zero, add_zero] at h0
    rw [← h0] at hmax
    have hd : ∀ (z : V2 ℝ) (u : ℝ), z = ⟨c.x + r * Real.cos (A + u), c.y + r * Real.sin (A + u)⟩ →
        edist pt z ^ 2 = ρ ^ 2 + r ^ 2 - 2 * (r * ρ) * Real.cos (A + u - β) := by
      intro z u hz
      rw [edist_sq, hz, htx, hty, Real.cos_sub]
      have s1 := Real.sin_sq_add_cos_sq β
      have s2 := Real.sin_sq_add_cos_sq (A + u)
      dsimp only
      linear_combination ρ ^ 2 * s1 + r ^ 2 * s2
    have dp := hd p 0 (by rw [add_zero]; exact hstart)
    have dq := hd q θ hend
    have dt := hd _ (t * θ) (hpol t)
    rw [add_zero] at dp
    rcases le_max_iff.mp hmax with h | h
    · left
      apply le_of_sq_le' _ (edist_nonneg _ _)
      rw [dp, dt]
      have := mul_le_mul_of_nonneg_left h hrρ.le
      linarith
    · right
      apply le_of_sq_le' _ (edist_nonneg _ _)
      rw [dq, dt]
      have := mul_le_mul_of_nonneg_left h hrρ.le
      linarith

theorem edist_eq_norm (p q : V2 ℝ) : edist p q = ‖(⟨p.x - q.x, p.y - q.y⟩ : ℂ)‖ := by
  rw [Complex.norm_def, Complex.normSq_mk]; unfold edist; congr 1; ring

theorem edist_triangle (p q r : V2 ℝ) : edist p r ≤ edist p q + edist q r := by
  rw [edist_eq_norm, edist_eq_norm, edist_eq_norm]
  refine le_trans (le_of_eq ?_) (norm_add_le _ _)
  congr 1
  apply Complex.ext <;> simp

theorem edist_self (p : V2 ℝ) : edist p p = 0 := by unfold edist; simp

/-- The point of the circle with the given center and radius in the direction of `pt`. -/
noncomputable def circleProj (c : V2 ℝ) (r : ℝ) (pt : V2 ℝ) : V2 ℝ :=
  ⟨c.x + r * ((pt.x - c.x) / edist pt c), c.y + r * ((pt.y - c.y) / edist pt c)⟩

theorem circleProj_center {c : V2 ℝ} {r : ℝ} {pt : V2 ℝ} (h : pt ≠ c) (hr : 0 ≤ r) :
    edist (circleProj c r pt) c = r ∧ edist pt (circleProj c r pt) = |edist pt c - r| := by
  have hρ := edist_pos h
  have hs := edist_sq pt c
  constructor
  · apply edist_eq_of_sq hr
    simp only [circleProj]
    field_simp
    linear_combination (r ^ 2) * hs.symm
  · apply edist_eq_of_sq (abs_nonneg _)
    simp only [circleProj]
    rw [sq_abs]
    field_simp
    linear_combination (edist pt c - r) ^ 2 * hs.symm

/-- Any other point of the circle is at least as far away. -/
theorem circleProj_nearest {c : V2 ℝ} {r : ℝ} {pt q : V2 ℝ} (h : pt ≠ c) (hr : 0 ≤ r)
    (hq : edist q c = r) : edist pt (circleProj c r pt) ≤ edist pt q := by
  rw [(circleProj_center h hr).2, abs_le]
  have h1 := edist_triangle pt q c
  have h2 := edist_triangle q pt c
  rw [edist_comm q pt] at h2
  constructor <;> linarith

/-- The cross product of the vectors from `c` to `a` and from `c` to `b`. -/
def cross (c a b : V2 ℝ) : ℝ := (a.x - c.x) * (b.y - c.y) - (a.y - c.y) * (b.x - c.x)

theorem arc_sweep {v1 v2 : Vertex ℝ} (h : ProperArc v1 v2) {pt : V2 ℝ} {eps : ℝ} (heps : 0 < eps)
    (hpt : pt ≠ arcCenter v1.pos v2.pos v1.bulge) :
    (pointWithinArcSweep (arcCenter v1.pos v2.pos v1.bulge) v1.pos v2.pos v1.bulgeIsNeg pt eps = false →
      ∀ q, OnSeg v1 v2 q → edist pt v1.pos ≤ edist pt q ∨ edist pt v2.pos ≤ edist pt q) ∧
    (pointWithinArcSweep (arcCenter v1.pos v2.pos v1.bulge) v1.pos v2.pos v1.bulgeIsNeg pt eps = true →
      (|cross (arcCenter v1.pos v2.pos v1.bulge) v1.pos pt| < eps → cross (arcCenter v1.pos v2.pos v1.bulge) v1.pos pt = 0) →
      (|cross (arcCenter v1.pos v2.pos v1.bulge) v2.pos pt| < eps → cross (arcCenter v1.pos v2.pos v1.bulge) v2.pos pt = 0) →
      OnSeg v1 v2 (circleProj (arcCenter v1.pos v2.pos v1.bulge) (arcRadius v1.pos v2.pos v1.bulge) pt)) := by
  have hb := bulge_ne_zero h.notLine
  have hcross : ∀ a, cross (arcCenter v1.pos v2.pos v1.bulge) a pt
      = perpDotTestValue (arcCenter v1.pos v2.pos v1.bulge) a pt := fun a => rfl
  simp only [hcross, Vertex.bulgeIsNeg_eq, OnSeg, segCurve_arc h.notLine]
  have hband : ∀ x : ℝ, (|x| < eps → x = 0) → (-eps < x → 0 ≤ x) ∧ (x < eps → x ≤ 0) := by
    intro x hx
    constructor
    · intro h1; by_contra hc; push Not at hc
      have := hx (by rw [abs_of_neg hc]; linarith); linarith
    · intro h1; by_contra hc; push Not at hc
      have := hx (by rw [abs_of_pos hc]; linarith); linarith
  rcases lt_or_gt_of_ne hb with hneg | hpos
  · have hd : decide (v1.bulge < 0) = true := decide_eq_true hneg
    have hS := ccw_sweep (p := v2.pos) (q := v1.pos) (b := -v1.bulge) h.ne.symm (by linarith)
      (by have := h.half; rw [abs_of_neg hneg] at this; exact this) (pt := pt)
      (by rw [arcCenter_swap _ _ _ hb]; exact hpt)
    simp only [arcCenter_swap _ _ _ hb, arcRadius_swap, arcPoint_swap _ _ _ _ hb] at hS
    rw [hd]
    simp only [pointWithinArcSweep, isRightOrCoincidentEps, isLeftOrCoincidentEps, lt_eq, gt_eq,
      if_true, Bool.and_eq_false_iff, Bool.and_eq_true, decide_eq_false_iff_not, decide_eq_true_eq]
    constructor
    · rintro hf q ⟨t, ht0, ht1, rfl⟩
      have := hS.2 (by
        rcases hf with hf | hf
        · right; linarith
        · left; linarith) (1 - t) (by linarith) (by linarith)
      rw [sub_sub_cancel] at this
      exact this.symm
    · rintro ⟨h1, h2⟩ hb1 hb2
      obtain ⟨t, ht0, ht1, he⟩ := hS.1 ⟨(hband _ hb2).1 h2, (hband _ hb1).2 h1⟩
      exact ⟨1 - t, by linarith, by linarith, he.symm⟩
  · have hd : decide (v1.bulge < 0) = false := decide_eq_false (by linarith)
    have hS := ccw_sweep (p := v1.pos) (q := v2.pos) (b := v1.bulge) h.ne hpos
      (by have := h.half; rw [abs_of_pos hpos] at this; exact this) (pt := pt) hpt
    rw [hd]
    simp only [pointWithinArcSweep, isRightOrCoincidentEps, isLeftOrCoincidentEps, lt_eq, gt_eq,
      Bool.false_eq_true, if_false, Bool.and_eq_false_iff, Bool.and_eq_true, decide_eq_false_iff_not, decide_eq_true_eq]
    constructor
    · rintro hf q ⟨t, ht0, ht1, rfl⟩
      exact hS.2 (by
        rcases hf with hf | hf
        · left; linarith
        · right; linarith) t ht0 ht1
    · rintro ⟨h1, h2⟩ hb1 hb2
      obtain ⟨t, ht0, ht1, he⟩ := hS.1 ⟨(hband _ hb1).1 h1, (hband _ hb2).2 h2⟩
      exact ⟨t, ht0, ht1, he.symm⟩

/-- **C32** (arc segments, query point away from the arc's center) No point of the segment is nearer
than the returned point, the returned point is on the arc's circle, and it is on the segment
itself unless the query point falls in the tolerance band of one of the two radial lines through
the end points (triangle area test below `eps` but not zero). -/
theorem C32_arc_partial (v1 v2 : Vertex ℝ) (h : ProperArc v1 v2) (pt : V2 ℝ) (eps : ℝ) (heps : 0 < eps)
    (hfar : eps ≤ |pt.x - (arcCenter v1.pos v2.pos v1.bulge).x| ∨
      eps ≤ |pt.y - (arcCenter v1.pos v2.pos v1.bulge).y|) :
    (∀ q, OnSeg v1 v2 q → edist pt (segClosestPoint v1 v2 pt eps) ≤ edist pt q) ∧
    edist (segClosestPoint v1 v2 pt eps) (arcCenter v1.pos v2.pos v1.bulge)
      = arcRadius v1.pos v2.pos v1.bulge ∧
    ((∀ e, e = v1.pos ∨ e = v2.pos →
        ¬ (0 < |cross (arcCenter v1.pos v2.pos v1.bulge) e pt| ∧
           |cross (arcCenter v1.pos v2.pos v1.bulge) e pt| < eps)) →
      OnSeg v1 v2 (segClosestPoint v1 v2 pt eps)) := by
  have hb := bulge_ne_zero h.notLine
  set c := arcCenter v1.pos v2.pos v1.bulge with hc
  set r := arcRadius v1.pos v2.pos v1.bulge with hr
  have hpt : pt ≠ c := by
    rintro rfl
    simp at hfar
    linarith
  have hr0 : 0 ≤ r := arcRadius_nonneg _ _ _
  obtain ⟨hout, hin⟩ := arc_sweep h heps hpt
  have e1 : OnSeg v1 v2 v1.pos := ⟨0, le_refl _, zero_le_one, (segCurve_ends v1 v2).1.symm⟩
  have e2 : OnSeg v1 v2 v2.pos := ⟨1, zero_le_one, le_refl _, (segCurve_ends v1 v2).2.symm⟩
  have hcirc : ∀ q, OnSeg v1 v2 q → edist q c = r := by
    rintro q ⟨t, _, _, rfl⟩
    rw [segCurve_arc h.notLine]; exact arcPoint_edist _ _ _ _ hb
  have hnf : pt.fuzzyEqEps c eps = false := by
    rw [Bool.eq_false_iff]
    intro hcon
    rw [V2.fuzzyEqEps_iff] at hcon
    rcases hfar with h1 | h1 <;> linarith [hcon.1, hcon.2]
  have hdef : segClosestPoint v1 v2 pt eps
      = if pointWithinArcSweep c v1.pos v2.pos v1.bulgeIsNeg pt eps then circleProj c r pt
        else if edist pt v1.pos < edist pt v2.pos then v1.pos else v2.pos := by
    unfold segClosestPoint
    rw [bulgeIsZero_false h.notLine, segArcRadiusAndCenter_eq v1 v2 hb h.ne]
    simp only [Bool.false_eq_true, if_false, ← hc, ← hr, hnf]
    congr 1
    · rw [V2.ext_iff']
      have hl : (pt - c).length = edist pt c := by rw [V2.length_eq]; rfl
      simp only [V2.normalize, V2.add_x, V2.add_y, V2.scale_x, V2.scale_y, hl, circleProj, V2.sub_x, V2.sub_y]
      constructor <;> ring
    · have hd : (Scalar.lt (distSquared v1.pos pt) (distSquared v2.pos pt) = true) ↔ edist pt v1.pos < edist pt v2.pos := by
        rw [lt_iff, distSquared_eq, distSquared_eq, edist_comm pt, edist_comm pt]
        unfold edist
        rw [Real.sqrt_lt_sqrt_iff (by positivity)]
      by_cases hx : edist pt v1.pos < edist pt v2.pos
      · rw [if_pos hx, if_pos (hd.mpr hx)]
      · rw [if_neg hx, if_neg (fun hy => hx (hd.mp hy))]
  rw [hdef]
  cases hsw : pointWithinArcSweep c v1.pos v2.pos v1.bulgeIsNeg pt eps
  · simp only [Bool.false_eq_true, if_false]
    refine ⟨?_, ?_, ?_⟩
    · intro q hq
      have := hout hsw q hq
      split_ifs with hlt
      · rcases this with h1 | h1 <;> linarith
      · rcases this with h1 | h1 <;> linarith
    · split_ifs
      · exact hcirc _ e1
      · exact hcirc _ e2
    · intro _
      split_ifs
      · exact e1
      · exact e2
  · simp only [if_true]
    refine ⟨?_, (circleProj_center hpt hr0).1, ?_⟩
    · intro q hq
      exact circleProj_nearest hpt hr0 (hcirc q hq)
    · intro hband
      have hb' : ∀ e, e = v1.pos ∨ e = v2.pos → (|cross c e pt| < eps → cross c e pt = 0) := by
        intro e he hlt
        by_contra hne
        exact hband e he ⟨abs_pos.mpr hne, hlt⟩
      exact hin hsw (hb' _ (Or.inl rfl)) (hb' _ (Or.inr rfl))

/-- **C32** (arc segments, query point at the arc's center up to `eps`) All points of the segment
are about equally far; the first vertex is returned, which no point of the segment beats by more
than `3 * eps`. -/
theorem C32_arc_center (v1 v2 : Vertex ℝ) (h : ProperArc v1 v2) (pt : V2 ℝ) (eps : ℝ)
    (hx : |pt.x - (arcCenter v1.pos v2.pos v1.bulge).x| < eps)
    (hy : |pt.y - (arcCenter v1.pos v2.pos v1.bulge).y| < eps) :
    OnSeg v1 v2 (segClosestPoint v1 v2 pt eps) ∧
    ∀ q, OnSeg v1 v2 q → edist pt (segClosestPoint v1 v2 pt eps) ≤ edist pt q + 3 * eps := by
  have hb := bulge_ne_zero h.notLine
  set c := arcCenter v1.pos v2.pos v1.bulge with hc
  have hdef : segClosestPoint v1 v2 pt eps = v1.pos := by
    unfold segClosestPoint
    rw [bulgeIsZero_false h.notLine, segArcRadiusAndCenter_eq v1 v2 hb h.ne]
    have : pt.fuzzyEqEps c eps = true := by rw [V2.fuzzyEqEps_iff]; exact ⟨hx, hy⟩
    simp only [Bool.false_eq_true, if_false, ← hc, this, if_true]
  rw [hdef]
  have e1 : OnSeg v1 v2 v1.pos := ⟨0, le_refl _, zero_le_one, (segCurve_ends v1 v2).1.symm⟩
  have hcirc : ∀ q, OnSeg v1 v2 q → edist q c = arcRadius v1.pos v2.pos v1.bulge := by
    rintro q ⟨t, _, _, rfl⟩
    rw [segCurve_arc h.notLine]; exact arcPoint_edist _ _ _ _ hb
  refine ⟨e1, fun q hq => ?_⟩
  have h1 := edist_triangle pt c v1.pos
  have h2 := edist_triangle q pt c
  rw [edist_comm c, hcirc _ e1] at h1
  rw [hcirc _ hq, edist_comm q pt] at h2
  have h3 : edist pt c ≤ 3 / 2 * eps := by
    have he : 0 ≤ eps := le_trans (abs_nonneg _) hx.le
    apply le_of_sq_le' _ (by positivity)
    rw [edist_sq]
    have := abs_lt.mp hx
    have := abs_lt.mp hy
    nlinarith
  linarith

/-- `C32_arc_partial` applies: the upper half of the unit circle and the point `(0, 2)`. -/
example : ProperArc ⟨1, 0, 1⟩ ⟨-1, 0, 0⟩ ∧
    (1 / 100000 : ℝ) ≤ |(2 : ℝ) - (arcCenter ⟨1, 0⟩ ⟨-1, 0⟩ 1).y| := by
  refine ⟨⟨by norm_num [IsLine], by norm_num, by simp [Vertex.pos]; norm_num⟩, ?_⟩
  norm_num [arcCenter]

/-- Disagreement: inside the tolerance band the returned point can be far off the segment.  The
segment is the upper half of the circle of radius 1/2 around the origin; the query point is just
below the center; the point returned is the bottom of the circle. -/
theorem C32_off_segment_witness :
    ProperArc ⟨1 / 2, 0, 1⟩ ⟨-1 / 2, 0, 0⟩ ∧
    segClosestPoint (T := ℝ) ⟨1 / 2, 0, 1⟩ ⟨-1 / 2, 0, 0⟩ ⟨0, -3 / 200000⟩ (1 / 100000) = ⟨0, -1 / 2⟩ ∧
    ∀ q, OnSeg ⟨1 / 2, 0, 1⟩ ⟨-1 / 2, 0, 0⟩ q → 0 ≤ q.y := by
  have hP : ProperArc ⟨1 / 2, 0, 1⟩ ⟨-1 / 2, 0, 0⟩ :=
    ⟨by norm_num [IsLine], by norm_num, by simp [Vertex.pos]; norm_num⟩
  have hc : arcCenter (Vertex.pos ⟨1 / 2, 0, 1⟩) (Vertex.pos ⟨-1 / 2, 0, 0⟩) 1 = ⟨0, 0⟩ := by
    rw [V2.ext_iff']; norm_num [arcCenter, Vertex.pos]
  have hr : arcRadius (Vertex.pos ⟨1 / 2, 0, 1⟩) (Vertex.pos ⟨-1 / 2, 0, 0⟩) 1 = 1 / 2 := by
    have : edist (Vertex.pos ⟨1 / 2, 0, 1⟩) (Vertex.pos ⟨-1 / 2, 0, 0⟩) = 1 :=
      edist_eq_of_sq zero_le_one (by norm_num [Vertex.pos])
    rw [arcRadius, this]; norm_num
  refine ⟨hP, ?_, ?_⟩
  · unfold segClosestPoint
    rw [bulgeIsZero_false hP.notLine, segArcRadiusAndCenter_eq _ _ (by norm_num) hP.ne]
    simp only [hc, hr]
    have h1 : V2.fuzzyEqEps (⟨0, -3 / 200000⟩ : V2 ℝ) ⟨0, 0⟩ (1 / 100000) = false := by
      rw [Bool.eq_false_iff]; intro h; rw [V2.fuzzyEqEps_iff] at h
      have := h.2; rw [abs_lt] at this; norm_num at this
    have h2 : pointWithinArcSweep (⟨0, 0⟩ : V2 ℝ) (Vertex.pos ⟨1 / 2, 0, 1⟩) (Vertex.pos ⟨-1 / 2, 0, 0⟩)
        (Vertex.bulgeIsNeg (T := ℝ) ⟨1 / 2, 0, 1⟩) ⟨0, -3 / 200000⟩ (1 / 100000) = true := by
      norm_num [pointWithinArcSweep, isLeftOrCoincidentEps, isRightOrCoincidentEps, perpDotTestValue, Vertex.pos]
    simp only [Bool.false_eq_true, if_false, h1, h2, if_true]
    have hl : V2.length ((⟨0, -3 / 200000⟩ : V2 ℝ) - ⟨0, 0⟩) = 3 / 200000 := by
      rw [V2.length_eq, Real.sqrt_eq_iff_mul_self_eq_of_pos (by norm_num)]
      simp; norm_num
    rw [V2.ext_iff']
    simp only [V2.normalize, hl, V2.add_x, V2.add_y, V2.scale_x, V2.scale_y, V2.sub_x, V2.sub_y]
    norm_num
  · rintro q ⟨t, ht0, ht1, rfl⟩
    rw [segCurve_arc hP.notLine]
    have ha : Real.arctan 1 = Real.pi / 4 := Real.arctan_one
    simp only [arcPoint, rotV, hc, ha]
    have := Real.sin_nonneg_of_nonneg_of_le_pi (x := t * (4 * (Real.pi / 4)))
      (by have := Real.pi_pos; positivity) (by have := Real.pi_pos; nlinarith)
    simp [Vertex.pos]
    simpa using this

/-! ## Whole polylines -/

/-- what has been established after looking at the first `k` segments -/
structure ClosestInv (p : Pline ℝ) (pt : V2 ℝ) (eps : ℝ) (k : Nat) (st : ClosestState ℝ) : Prop where
  idx : st.segStartIndex < k
  seg : ∃ s, p.segs[st.segStartIndex]? = some s ∧ st.segPoint = segClosestPoint s.1 s.2 pt eps
  d : st.dist2 = some (edist pt st.segPoint ^ 2)
  best : ∀ (j : Nat) (s : Vertex ℝ × Vertex ℝ), j < k → p.segs[j]? = some s →
    edist pt st.segPoint ≤ edist pt (segClosestPoint s.1 s.2 pt eps) ∧
    (j < st.segStartIndex → edist pt st.segPoint < edist pt (segClosestPoint s.1 s.2 pt eps))

theorem closest_fold (p : Pline ℝ) (pt : V2 ℝ) (eps : ℝ) (init : ClosestState ℝ) (hi : init.dist2 = none) :
    ∀ k, k ≤ p.segmentCount → ∃ st,
      ((List.range k).map fun i => (i, (i + 1) % p.verts.length)).foldlM (closestStep p pt eps) init = .ok st ∧
      ((k = 0 ∧ st = init) ∨ (0 < k ∧ ClosestInv p pt eps k st)) := by
  intro k
  induction k with
  | zero => exact fun _ => ⟨init, rfl, Or.inl ⟨rfl, rfl⟩⟩
  | succ k ih =>
    intro hk
    obtain ⟨st, hst, hinv⟩ := ih (by omega)
    have hseg := segs_getElem? p k (by omega)
    obtain ⟨a, b, ha, hb, hs⟩ := hseg
    rw [List.range_succ, List.map_append, List.foldlM_append, hst]
    have hd2 : ∀ x : V2 ℝ, (pt - x).lengthSquared = edist pt x ^ 2 := by
      intro x; rw [V2.lengthSquared_eq, edist_sq]; simp
    have hstep : closestStep p pt eps st (k, (k + 1) % p.verts.length)
        = if (match st.dist2 with
              | none => true
              | some d => decide (edist pt (segClosestPoint a b pt eps) ^ 2 < d)) then
            .ok ⟨k, segClosestPoint a b pt eps, some (edist pt (segClosestPoint a b pt eps) ^ 2)⟩
          else .ok st := by
      unfold closestStep
      simp only [at_ok ha, at_ok hb, bind, Except.bind, hd2, ltMax_eq, lt_eq]
      cases st.dist2 <;> rfl
    show ∃ st', (([(k, (k + 1) % p.verts.length)] : List (Nat × Nat)).foldlM (closestStep p pt eps) st) = .ok st' ∧ _
    rw [List.foldlM_cons, hstep]
    rcases hinv with ⟨h0, rfl⟩ | ⟨h0, hinv⟩
    · rw [hi]
      simp only [if_true]
      refine ⟨_, rfl, Or.inr ⟨by omega, ?_⟩⟩
      constructor
      · exact Nat.lt_succ_self k
      · exact ⟨(a, b), hs, rfl⟩
      · rfl
      · intro j s hj hjs
        obtain rfl : j = k := by omega
        rw [hs] at hjs
        obtain rfl := Option.some.inj hjs
        exact ⟨le_refl _, fun h => absurd h (lt_irrefl _)⟩
    · rw [hinv.d]
      dsimp only
      by_cases hlt : edist pt (segClosestPoint a b pt eps) ^ 2 < edist pt st.segPoint ^ 2
      · simp only [decide_eq_true hlt, if_true]
        have hlt' : edist pt (segClosestPoint a b pt eps) < edist pt st.segPoint :=
          lt_of_pow_lt_pow_left₀ 2 (edist_nonneg _ _) hlt
        refine ⟨_, rfl, Or.inr ⟨by omega, ?_⟩⟩
        constructor
        · exact Nat.lt_succ_self k
        · exact ⟨(a, b), hs, rfl⟩
        · rfl
        · intro j s hj hjs
          rcases Nat.lt_succ_iff_lt_or_eq.mp hj with h | rfl
          · have := (hinv.best j s h hjs).1
            exact ⟨by dsimp only; linarith, fun _ => by dsimp only; linarith⟩
          · rw [hs] at hjs
            obtain rfl := Option.some.inj hjs
            exact ⟨le_refl _, fun h => absurd h (lt_irrefl _)⟩
      · simp only [decide_eq_false hlt, Bool.false_eq_true, if_false]
        refine ⟨st, rfl, Or.inr ⟨by omega, ?_⟩⟩
        have hle : edist pt st.segPoint ≤ edist pt (segClosestPoint a b pt eps) :=
          le_of_sq_le' (not_lt.mp hlt) (edist_nonneg _ _)
        have hidx := hinv.idx
        constructor
        · omega
        · exact hinv.seg
        · exact hinv.d
        · intro j s hj hjs
          rcases Nat.lt_succ_iff_lt_or_eq.mp hj with h | rfl
          · exact hinv.best j s h hjs
          · rw [hs] at hjs
            obtain rfl := Option.some.inj hjs
            exact ⟨hle, fun h => absurd h (by omega)⟩

/-- **C13** No result exactly for the empty polyline; a single vertex is its own closest point;
otherwise the result names a segment of the polyline, the point is that segment's closest point,
the distance is the distance to that point, no other segment's closest point is nearer, and among
equally near ones the first segment wins. -/
theorem C13_closest_point (p : Pline ℝ) (pt : V2 ℝ) (eps : ℝ) :
    (p.closestPoint pt eps = .ok none ↔ p.verts = []) ∧
    (∀ v, p.verts = [v] → p.closestPoint pt eps = .ok (some ⟨0, v.pos, edist pt v.pos⟩)) ∧
    (2 ≤ p.verts.length → ∃ r, p.closestPoint pt eps = .ok (some r) ∧
      (∃ s, p.segs[r.segStartIndex]? = some s ∧ r.segPoint = segClosestPoint s.1 s.2 pt eps) ∧
      r.distance = edist pt r.segPoint ∧
      ∀ (j : Nat) (s : Vertex ℝ × Vertex ℝ), p.segs[j]? = some s →
        r.distance ≤ edist pt (segClosestPoint s.1 s.2 pt eps) ∧
        (j < r.segStartIndex → r.distance < edist pt (segClosestPoint s.1 s.2 pt eps))) := by
  have hempty : p.verts = [] → p.closestPoint pt eps = .ok none := by
    intro h; unfold closestPoint; simp [Pline.isEmpty, vertexCount, h]
  have hone : ∀ v, p.verts = [v] → p.closestPoint pt eps = .ok (some ⟨0, v.pos, edist pt v.pos⟩) := by
    intro v hv
    unfold closestPoint
    have : p.at 0 = .ok v := at_ok (by rw [hv]; rfl)
    simp only [Pline.isEmpty, vertexCount, hv, List.isEmpty_cons, Bool.false_eq_true, if_false, this, bind, Except.bind,
      List.length_singleton, if_true]
    rw [V2.length_eq, edist_comm pt]
    rfl
  have htwo : 2 ≤ p.verts.length → ∃ r, p.closestPoint pt eps = .ok (some r) ∧
      (∃ s, p.segs[r.segStartIndex]? = some s ∧ r.segPoint = segClosestPoint s.1 s.2 pt eps) ∧
      r.distance = edist pt r.segPoint ∧
      ∀ (j : Nat) (s : Vertex ℝ × Vertex ℝ), p.segs[j]? = some s →
        r.distance ≤ edist pt (segClosestPoint s.1 s.2 pt eps) ∧
        (j < r.segStartIndex → r.distance < edist pt (segClosestPoint s.1 s.2 pt eps)) := by
    intro h2
    have h0 : 0 < p.verts.length := by omega
    have hsc : 0 < p.segmentCount := by
      unfold segmentCount vertexCount; dsimp only; split_ifs <;> omega
    obtain ⟨st, hst, hinv⟩ := closest_fold p pt eps ⟨0, p.verts[0].pos, none⟩ rfl p.segmentCount (le_refl _)
    rcases hinv with ⟨h, _⟩ | ⟨_, hinv⟩
    · omega
    have hdist : Real.sqrt (edist pt st.segPoint ^ 2) = edist pt st.segPoint :=
      Real.sqrt_sq (edist_nonneg _ _)
    refine ⟨⟨st.segStartIndex, st.segPoint, edist pt st.segPoint⟩, ?_, hinv.seg, rfl, ?_⟩
    · unfold closestPoint
      have hne : p.isEmpty = false := by
        unfold Pline.isEmpty vertexCount
        simp; intro h; rw [h] at h0; simp at h0
      have h1 : p.vertexCount ≠ 1 := by unfold vertexCount; omega
      rw [segIndexes_eq]
      simp only [hne, Bool.false_eq_true, if_false, at_lt h0, bind, Except.bind, h1]
      rw [hst]
      simp only [hinv.d, sqrt_eq, hdist]
    · intro j s hjs
      have hj : j < p.segmentCount := by
        rw [← segs_length]
        exact (List.getElem?_eq_some_iff.mp hjs).1
      exact hinv.best j s hj hjs
  refine ⟨⟨?_, hempty⟩, hone, htwo⟩
  intro h
  rcases hv : p.verts with _ | ⟨a, _ | ⟨b, l⟩⟩
  · rfl
  · rw [hone a hv] at h; simp at h
  · obtain ⟨r, hr, _⟩ := htwo (by rw [hv]; simp)
    rw [hr] at h; simp at h

/-- **C13** (nearest over the whole path) If every segment is a line or a proper arc whose center
is not within `eps` of the query point, no point of the traced path is nearer than the reported
distance, up to the `2e-8` line tolerance on squared distances. -/
theorem C13_nearest (p : Pline ℝ) (pt : V2 ℝ) (eps : ℝ) (heps : 0 < eps) (h2 : 2 ≤ p.verts.length)
    (hp : ∀ s ∈ p.segs, IsLine s.1 ∨ (ProperArc s.1 s.2 ∧
      (eps ≤ |pt.x - (arcCenter s.1.pos s.2.pos s.1.bulge).x| ∨
       eps ≤ |pt.y - (arcCenter s.1.pos s.2.pos s.1.bulge).y|))) :
    ∃ r, p.closestPoint pt eps = .ok (some r) ∧ r.distance = edist pt r.segPoint ∧
      ∀ q, OnPline p q → r.distance ^ 2 ≤ edist pt q ^ 2 + 2 / 100000000 := by
  obtain ⟨r, hr, _, hd, hbest⟩ := (C13_closest_point p pt eps).2.2 h2
  refine ⟨r, hr, hd, ?_⟩
  rintro q ⟨s, hs, hq⟩
  obtain ⟨j, hj⟩ := List.getElem?_of_mem hs
  have h1 := (hbest j s hj).1
  have h0 : 0 ≤ r.distance := by rw [hd]; exact edist_nonneg _ _
  have h3 : r.distance ^ 2 ≤ edist pt (segClosestPoint s.1 s.2 pt eps) ^ 2 := pow_le_pow_left₀ h0 h1 2
  rcases hp s hs with hl | ⟨ha, hfar⟩
  · exact le_trans h3 ((C32_line s.1 s.2 hl pt eps).2 q hq)
  · have h4 := (C32_arc_partial s.1 s.2 ha pt eps heps hfar).1 q hq
    have h5 := pow_le_pow_left₀ (edist_nonneg _ _) h4 2
    linarith

/-- `C13_nearest` applies: a closed triangle. -/
example : ∀ s ∈ (⟨[⟨0, 0, 0⟩, ⟨2, 0, 0⟩, ⟨0, 2, 0⟩], true⟩ : Pline ℝ).segs, IsLine s.1 := by
  intro s hs
  rw [segs_eq] at hs
  simp [loopVerts, pathSegs] at hs
  rcases hs with rfl | rfl | rfl <;> norm_num [IsLine]

end Cavc
