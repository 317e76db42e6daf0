import Verif.Props.ArcIntr

/-! # C27: intersects of two arcs of the same circle -/

set_option linter.unusedSectionVars false

namespace Cavc
open RealScalar

/-- `x` is within the angle tolerance of the sweep that starts at `lo` and is `w` wide. -/
def NearSweep (lo w x : ℝ) : Prop :=
  ∃ u e, 0 ≤ u ∧ u ≤ w ∧ |e| ≤ 1 / 100000000 ∧ AngleCongr x (lo + u + e)

/-- the code's membership test for a sweep starting at `lo` of width `w` -/
noncomputable def inSweep (lo w x : ℝ) : Bool := angleIsBetweenEps x lo (lo + w) (1 / 100000000)

theorem inSweep_iff {lo w x : ℝ} (h0 : 0 ≤ w) (h1 : w ≤ Real.pi) :
    inSweep lo w x = true ↔ normalizeRadians (x - lo) < w + 1 / 100000000 := by
  unfold inSweep; rw [between_eq lo w x h0 h1, decide_eq_true_eq]

/-- a decided position -/
theorem inSweep_true {lo w x : ℝ} (h0 : 0 ≤ w) (h1 : w ≤ Real.pi) (h : inSweep lo w x = true) :
    ∃ s, 0 ≤ s ∧ s < w + 1 / 100000000 ∧ AngleCongr x (lo + s) := by
  rw [inSweep_iff h0 h1] at h
  obtain ⟨⟨k, hk⟩, hn0, _⟩ := C34_normalize_radians (x - lo)
  exact ⟨_, hn0, h, ⟨-k, by push_cast; linarith⟩⟩

theorem inSweep_false {lo w x : ℝ} (h0 : 0 ≤ w) (h1 : w ≤ Real.pi) (h : inSweep lo w x = false) {s : ℝ}
    (hs : AngleCongr x (lo + s)) (hs0 : 0 ≤ s) (hs1 : s < 2 * Real.pi) : x - lo = 2 * Real.pi ∨ w + 1 / 100000000 ≤ s := by
  by_cases hx : x - lo = 2 * Real.pi
  · left; exact hx
  right
  rw [← Bool.not_eq_true, inSweep_iff h0 h1, not_lt] at h
  obtain ⟨⟨k, hk⟩, hn0, _, hn1⟩ := C34_normalize_radians (x - lo)
  have hn1 := hn1 hx
  have : normalizeRadians (x - lo) = s := by
    apply AngleCongr.eq_of_lt
    · obtain ⟨m, hm⟩ := hs
      exact ⟨k + m, by push_cast; linarith⟩
    · rw [abs_lt]; constructor <;> linarith
  rw [← this]; exact h

theorem near_of_offset {lo w x s : ℝ} (h0 : 0 ≤ w) (h : AngleCongr x (lo + s)) (h1 : -(1 / 100000000) ≤ s) (h2 : s ≤ w + 1 / 100000000) :
    NearSweep lo w x := by
  rcases lt_or_ge s 0 with hs | hs
  · exact ⟨0, s, le_refl _, h0, by rw [abs_of_neg hs]; linarith, by rw [add_zero]; exact h⟩
  · rcases le_or_gt s w with hw | hw
    · exact ⟨s, 0, hs, hw, by norm_num, by rw [add_zero]; exact h⟩
    · exact ⟨w, s - w, h0, le_refl _, by rw [abs_of_pos (by linarith)]; linarith, by
        rw [show lo + w + (s - w) = lo + s by ring]; exact h⟩

theorem inSweep_near {lo w x : ℝ} (h0 : 0 ≤ w) (h1 : w ≤ Real.pi) (h : inSweep lo w x = true) : NearSweep lo w x := by
  obtain ⟨s, hs0, hs1, hc⟩ := inSweep_true h0 h1 h
  exact near_of_offset h0 hc (by linarith) hs1.le

/-- a multiple of the full turn in `(-2π, 2π)` is zero -/
theorem zero_of_turn {a : ℝ} (h : AngleCongr a 0) (h1 : -(2 * Real.pi) < a) (h2 : a < 2 * Real.pi) : a = 0 :=
  h.eq_of_lt (by rw [sub_zero, abs_lt]; exact ⟨h1, h2⟩)

theorem pi_big : (1 : ℝ) / 100000000 < Real.pi := by linarith [Real.two_le_pi]

theorem overlap_hi {lo1 w1 lo2 w2 : ℝ} (h10 : 0 ≤ w1) (h11 : w1 ≤ Real.pi) (h20 : 0 ≤ w2) (h21 : w2 ≤ Real.pi)
    (hs : inSweep lo1 w1 lo2 = true) (he : inSweep lo1 w1 (lo2 + w2) = false) : NearSweep lo2 w2 (lo1 + w1) := by
  have hpi := pi_big
  obtain ⟨s, hs0, hs1, hc⟩ := inSweep_true h10 h11 hs
  have hoff : AngleCongr (lo1 + w1) (lo2 + (w1 - s)) := by
    obtain ⟨k, hk⟩ := hc
    exact ⟨-k, by push_cast; linarith⟩
  refine near_of_offset h20 hoff (by linarith) ?_
  by_cases hbig : s + w2 < 2 * Real.pi
  · have hc2 : AngleCongr (lo2 + w2) (lo1 + (s + w2)) := by
      obtain ⟨k, hk⟩ := hc
      exact ⟨k, by linarith⟩
    rcases inSweep_false h10 h11 he hc2 (by linarith) hbig with h | h
    · have h0 : s + w2 = 0 := by
        apply zero_of_turn _ (by linarith) hbig
        obtain ⟨k, hk⟩ := hc2
        exact ⟨1 - k, by push_cast; linarith⟩
      exfalso
      have hw : w2 = 0 := by linarith
      rw [hw, add_zero] at he
      rw [hs] at he; cases he
    · linarith
  · linarith

theorem overlap_lo {lo1 w1 lo2 w2 : ℝ} (h10 : 0 ≤ w1) (h11 : w1 ≤ Real.pi) (h20 : 0 ≤ w2)
    (hs : inSweep lo1 w1 lo2 = false) (he : inSweep lo1 w1 (lo2 + w2) = true) : NearSweep lo2 w2 lo1 := by
  have hpi := pi_big
  obtain ⟨s, hs0, hs1, hc⟩ := inSweep_true h10 h11 he
  have hoff : AngleCongr lo1 (lo2 + (w2 - s)) := by
    obtain ⟨k, hk⟩ := hc
    exact ⟨-k, by push_cast; linarith⟩
  refine near_of_offset h20 hoff ?_ (by linarith)
  by_contra hlt
  push Not at hlt
  have hc2 : AngleCongr lo2 (lo1 + (s - w2)) := by
    obtain ⟨k, hk⟩ := hc
    exact ⟨k, by linarith⟩
  rcases inSweep_false h10 h11 hs hc2 (by linarith) (by linarith) with h | h
  · have h0 : s - w2 = 0 := by
      apply zero_of_turn _ (by linarith) (by linarith)
      obtain ⟨k, hk⟩ := hc2
      exact ⟨1 - k, by push_cast; linarith⟩
    linarith
  · linarith

theorem overlap_inside_ccw {lo1 w1 lo2 w2 : ℝ} (h10 : 0 ≤ w1) (h11 : w1 ≤ Real.pi) (h20 : 0 ≤ w2) (h21 : w2 ≤ Real.pi)
    (he : inSweep lo1 w1 (lo2 + w2) = false) (hi : inSweep lo2 w2 lo1 = true)
    (hno : ∀ e, |e| < 1 / 100000000 → ¬ AngleCongr lo1 (lo2 + w2 + e)) : NearSweep lo2 w2 (lo1 + w1) := by
  have hpi := pi_big
  obtain ⟨s, hs0, hs1, hc⟩ := inSweep_true h20 h21 hi
  have hsw : s ≤ w2 := by
    by_contra hlt
    push Not at hlt
    apply hno (s - w2) (by rw [abs_of_pos (by linarith)]; linarith)
    rw [show lo2 + w2 + (s - w2) = lo2 + s by ring]; exact hc
  have hc2 : AngleCongr (lo2 + w2) (lo1 + (w2 - s)) := by
    obtain ⟨k, hk⟩ := hc
    exact ⟨-k, by push_cast; linarith⟩
  have hoff : AngleCongr (lo1 + w1) (lo2 + (s + w1)) := by
    obtain ⟨k, hk⟩ := hc
    exact ⟨k, by linarith⟩
  refine near_of_offset h20 hoff (by linarith) ?_
  rcases inSweep_false h10 h11 he hc2 (by linarith) (by linarith) with h | h
  · exfalso
    have h0 : w2 - s = 0 := by
      apply zero_of_turn _ (by linarith) (by linarith)
      obtain ⟨k, hk⟩ := hc2
      exact ⟨1 - k, by push_cast; linarith⟩
    apply hno 0 (by norm_num)
    rw [add_zero, show lo2 + w2 = lo2 + s by linarith]; exact hc
  · linarith

theorem overlap_inside_cw {lo1 w1 lo2 w2 : ℝ} (h10 : 0 ≤ w1) (h11 : w1 ≤ Real.pi) (h20 : 0 ≤ w2) (h21 : w2 ≤ Real.pi)
    (hs : inSweep lo1 w1 lo2 = false) (hi : inSweep lo2 w2 (lo1 + w1) = true) : NearSweep lo2 w2 lo1 := by
  have hpi := pi_big
  obtain ⟨s, hs0, hs1, hc⟩ := inSweep_true h20 h21 hi
  have hoff : AngleCongr lo1 (lo2 + (s - w1)) := by
    obtain ⟨k, hk⟩ := hc
    exact ⟨k, by linarith⟩
  refine near_of_offset h20 hoff ?_ (by linarith)
  by_contra hlt
  push Not at hlt
  have hc2 : AngleCongr lo2 (lo1 + (w1 - s)) := by
    obtain ⟨k, hk⟩ := hc
    exact ⟨-k, by push_cast; linarith⟩
  rcases inSweep_false h10 h11 hs hc2 (by linarith) (by linarith) with h | h
  · have h0 : w1 - s = 0 := by
      apply zero_of_turn _ (by linarith) (by linarith)
      obtain ⟨k, hk⟩ := hc2
      exact ⟨1 - k, by push_cast; linarith⟩
    linarith
  · linarith

/-! ## Signed sweeps -/

/-- `x` is within the angle tolerance of the sweep from `a` to `a + θ`. -/
def NearArc (a θ x : ℝ) : Prop := ∃ u e, 0 ≤ u ∧ u ≤ 1 ∧ |e| ≤ 1 / 100000000 ∧ AngleCongr x (a + u * θ + e)

theorem nearArc_pos {a θ x : ℝ} (h : 0 < θ) (hn : NearSweep a θ x) : NearArc a θ x := by
  obtain ⟨u, e, h0, h1, h2, h3⟩ := hn
  refine ⟨u / θ, e, div_nonneg h0 h.le, (div_le_one h).mpr h1, h2, ?_⟩
  rw [div_mul_cancel₀ _ h.ne']; exact h3

theorem nearArc_neg {a θ x : ℝ} (h : θ < 0) (hn : NearSweep (a + θ) (-θ) x) : NearArc a θ x := by
  obtain ⟨u, e, h0, h1, h2, h3⟩ := hn
  refine ⟨1 + u / θ, e, ?_, ?_, h2, ?_⟩
  · have : -1 ≤ u / θ := by rw [le_div_iff_of_neg h]; linarith
    linarith
  · have : u / θ ≤ 0 := div_nonpos_of_nonneg_of_nonpos h0 h.le
    linarith
  · rw [show a + (1 + u / θ) * θ + e = a + θ + u + e by rw [add_mul, div_mul_cancel₀ _ h.ne]; ring]; exact h3

theorem within_pos {a θ x : ℝ} (h : 0 < θ) : angleIsWithinSweep x a θ = inSweep a θ x := by
  unfold angleIsWithinSweep angleIsWithinSweepEps inSweep
  simp only [lt_eq, decide_eq_true h, decide_eq_false (not_lt.mpr h.le), Bool.false_eq_true, if_true, if_false]
  rfl

theorem within_neg {a θ x : ℝ} (h : θ < 0) : angleIsWithinSweep x a θ = inSweep (a + θ) (-θ) x := by
  unfold angleIsWithinSweep angleIsWithinSweepEps inSweep
  simp only [lt_eq, decide_eq_true h, decide_eq_false (not_lt.mpr h.le), Bool.false_eq_true, if_true, if_false]
  rw [show a + θ + -θ = a by ring]
  rfl

/-- Two sweeps in the same direction: what the code's membership tests imply. -/
theorem overlap_core {a θ b η : ℝ} (hd : 0 < θ ∧ 0 < η ∨ θ < 0 ∧ η < 0) (hθ : |θ| ≤ Real.pi) (hη : |η| ≤ Real.pi) :
    (∀ x, angleIsWithinSweep x a θ = true → NearArc a θ x) ∧
    (∀ x, angleIsWithinSweep x b η = true → NearArc b η x) ∧
    (angleIsWithinSweep b a θ = true → angleIsWithinSweep (b + η) a θ = false → NearArc b η (a + θ)) ∧
    (angleIsWithinSweep b a θ = false → angleIsWithinSweep (b + η) a θ = true → NearArc b η a) ∧
    (angleIsWithinSweep b a θ = false → angleIsWithinSweep (b + η) a θ = false → angleIsWithinSweep a b η = true →
      (∀ e, |e| < 1 / 100000000 → ¬ AngleCongr a (b + η + e)) → NearArc b η (a + θ)) := by
  rcases hd with ⟨h1, h2⟩ | ⟨h1, h2⟩
  · rw [abs_of_pos h1] at hθ
    rw [abs_of_pos h2] at hη
    simp only [within_pos h1, within_pos h2]
    refine ⟨fun x h => nearArc_pos h1 (inSweep_near h1.le hθ h), fun x h => nearArc_pos h2 (inSweep_near h2.le hη h),
      fun hs he => nearArc_pos h2 (overlap_hi h1.le hθ h2.le hη hs he), fun hs he => nearArc_pos h2 (overlap_lo h1.le hθ h2.le hs he),
      fun hs he hi hno => nearArc_pos h2 (overlap_inside_ccw h1.le hθ h2.le hη he hi hno)⟩
  · rw [abs_of_neg h1] at hθ
    rw [abs_of_neg h2] at hη
    simp only [within_neg h1, within_neg h2]
    have h1' : 0 ≤ -θ := by linarith
    have h2' : 0 ≤ -η := by linarith
    have e1 : a = a + θ + -θ := by ring
    have e2 : b = b + η + -η := by ring
    refine ⟨fun x h => nearArc_neg h1 (inSweep_near h1' hθ h), fun x h => nearArc_neg h2 (inSweep_near h2' hη h),
      fun hs he => nearArc_neg h2 ?_, fun hs he => nearArc_neg h2 ?_,
      fun hs he hi hno => nearArc_neg h2 ?_⟩
    · exact overlap_lo h1' hθ h2' he (by rw [← e2]; exact hs)
    · have := overlap_hi h1' hθ h2' hη he (by rw [← e2]; exact hs)
      rwa [← e1] at this
    · exact overlap_inside_cw h1' hθ h2' hη he (by rw [← e1]; exact hi)

/-! ## From angles to points -/

theorem polar_chord (c : V2 ℝ) {r : ℝ} (hr : 0 ≤ r) (β γ : ℝ) :
    edist ⟨c.x + r * Real.cos β, c.y + r * Real.sin β⟩ ⟨c.x + r * Real.cos γ, c.y + r * Real.sin γ⟩ ≤ r * |β - γ| := by
  apply le_of_sq_le' _ (mul_nonneg hr (abs_nonneg _))
  rw [edist_sq, mul_pow, sq_abs]
  have h := Real.one_sub_sq_div_two_le_cos (x := β - γ)
  rw [Real.cos_sub] at h
  have e1 := Real.sin_sq_add_cos_sq β
  have e2 := Real.sin_sq_add_cos_sq γ
  have : (c.x + r * Real.cos β - (c.x + r * Real.cos γ)) ^ 2 + (c.y + r * Real.sin β - (c.y + r * Real.sin γ)) ^ 2
      = r ^ 2 * (2 - 2 * (Real.cos β * Real.cos γ + Real.sin β * Real.sin γ)) := by
    linear_combination r ^ 2 * e1 + r ^ 2 * e2
  dsimp only
  rw [this]
  exact mul_le_mul_of_nonneg_left (by linarith) (sq_nonneg r)

theorem on_circle_polar {c pt : V2 ℝ} {r : ℝ} (h : edist pt c = r) :
    pt = ⟨c.x + r * Real.cos (angle c pt), c.y + r * Real.sin (angle c pt)⟩ := by
  obtain ⟨ρ, h0, h1, h2, h3⟩ := polar_form (pt.x - c.x) (pt.y - c.y)
  have hρ : ρ = r := by
    rw [← edist_sq, h] at h1
    exact (pow_left_inj₀ h0 (by rw [← h]; exact edist_nonneg _ _) (by norm_num)).mp h1
  rw [hρ] at h2 h3
  rw [V2.ext_iff', angle_eq]
  exact ⟨by linarith, by linarith⟩

theorem circle_chord {c p q : V2 ℝ} {r δ : ℝ} (hp : edist p c = r) (hq : edist q c = r)
    (h : AngleCongr (angle c p) (angle c q + δ)) : edist p q ≤ r * |δ| := by
  have hr : 0 ≤ r := by rw [← hp]; exact edist_nonneg _ _
  have := polar_chord c hr (angle c q + δ) (angle c q)
  rw [← cos_congr h, ← sin_congr h, ← on_circle_polar hp, ← on_circle_polar hq, add_sub_cancel_left] at this
  exact this

theorem nearSeg_of_nearArc {v1 v2 : Vertex ℝ} (h : ProperArc v1 v2) {a x : ℝ} {pt : V2 ℝ}
    (ha : AngleCongr (angle (arcCenter v1.pos v2.pos v1.bulge) v1.pos) a) (hn : NearArc a (4 * Real.arctan v1.bulge) x)
    (hx : AngleCongr (angle (arcCenter v1.pos v2.pos v1.bulge) pt) x)
    (hpt : edist pt (arcCenter v1.pos v2.pos v1.bulge) = arcRadius v1.pos v2.pos v1.bulge) :
    NearSeg v1 v2 pt (arcRadius v1.pos v2.pos v1.bulge * (1 / 100000000)) := by
  have hb := bulge_ne_zero h.notLine
  obtain ⟨u, e, h0, h1, h2, h3⟩ := hn
  refine ⟨arcPoint v1.pos v2.pos v1.bulge u, ⟨u, h0, h1, (segCurve_arc h.notLine u).symm⟩, ?_⟩
  have hc := circle_chord (δ := e) hpt (arcPoint_edist v1.pos v2.pos v1.bulge u hb) (by
    obtain ⟨k1, e1⟩ := ha
    obtain ⟨k2, e2⟩ := hx
    obtain ⟨k3, e3⟩ := h3
    obtain ⟨k4, e4⟩ := angle_arcPoint h.ne hb u
    exact ⟨k2 + k3 - k1 - k4, by push_cast; linarith⟩)
  exact hc.trans (mul_le_mul_of_nonneg_left h2 (arcRadius_nonneg _ _ _))

theorem nearArc_rev {a θ x : ℝ} (h : NearArc (a + θ) (-θ) x) : NearArc a θ x := by
  obtain ⟨u, e, h0, h1, h2, h3⟩ := h
  refine ⟨1 - u, e, by linarith, by linarith, h2, ?_⟩
  rw [show a + (1 - u) * θ + e = a + θ + u * -θ + e by ring]; exact h3

theorem nearArc_congr {a a' θ x : ℝ} (ha : AngleCongr a a') (h : NearArc a θ x) : NearArc a' θ x := by
  obtain ⟨u, e, h0, h1, h2, k, hk⟩ := h
  obtain ⟨m, hm⟩ := ha
  exact ⟨u, e, h0, h1, h2, k + m, by push_cast; linarith⟩

/-- the decision of the overlapping-circles arm, stated on oriented arcs -/
theorem overlap_decide {v1 v2 u1 u2 : Vertex ℝ} {s2 e2 c : V2 ℝ} {r eps a θ b η : ℝ} (heps : 0 < eps) (hr0 : 0 < r)
    (hr : r ≤ 100000000 * eps)
    (hd : 0 < θ ∧ 0 < η ∨ θ < 0 ∧ η < 0) (hθ : |θ| ≤ Real.pi) (hη : |η| ≤ Real.pi)
    (cv1 : edist v1.pos c = r) (cv2 : edist v2.pos c = r) (cs2 : edist s2 c = r) (ce2 : edist e2 c = r)
    (av1 : AngleCongr (angle c v1.pos) a) (av2 : AngleCongr (angle c v2.pos) (a + θ))
    (as2 : AngleCongr (angle c s2) b) (ae2 : AngleCongr (angle c e2) (b + η))
    (H1 : ∀ x pt, NearArc a θ x → AngleCongr (angle c pt) x → edist pt c = r → NearSeg v1 v2 pt eps)
    (H2 : ∀ x pt, NearArc b η x → AngleCongr (angle c pt) x → edist pt c = r → NearSeg u1 u2 pt eps) :
    (Scalar.fuzzyEqZeroEps (r * deltaAngle a (b + η)) eps = true →
      edist v1.pos e2 < eps) ∧
    (Scalar.fuzzyEqZeroEps (r * deltaAngle b (a + θ)) eps = true → edist s2 v2.pos < eps) ∧
    (Scalar.fuzzyEqZeroEps (r * deltaAngle a (b + η)) eps = false →
      (angleIsWithinSweep b a θ = true → angleIsWithinSweep (b + η) a θ = true →
        NearSeg v1 v2 s2 eps ∧ NearSeg v1 v2 e2 eps) ∧
      (angleIsWithinSweep b a θ = true → angleIsWithinSweep (b + η) a θ = false →
        NearSeg v1 v2 s2 eps ∧ NearSeg u1 u2 v2.pos eps) ∧
      (angleIsWithinSweep b a θ = false → angleIsWithinSweep (b + η) a θ = true →
        NearSeg u1 u2 v1.pos eps ∧ NearSeg v1 v2 e2 eps) ∧
      (angleIsWithinSweep b a θ = false → angleIsWithinSweep (b + η) a θ = false → angleIsWithinSweep a b η = true →
        NearSeg u1 u2 v1.pos eps ∧ NearSeg u1 u2 v2.pos eps)) := by
  obtain ⟨k1, k2, k3, k4, k5⟩ := overlap_core hd hθ hη (a := a) (b := b)
  refine ⟨?_, ?_, ?_⟩
  · intro h
    rw [fuzzyEqZeroEps_eq, decide_eq_true_eq, abs_mul, abs_of_pos hr0] at h
    refine lt_of_le_of_lt (circle_chord (δ := -deltaAngle a (b + η)) cv1 ce2 ?_) (by rw [abs_neg]; exact h)
    obtain ⟨k, hk⟩ := (C34_delta_angle a (b + η)).1
    obtain ⟨m, hm⟩ := av1
    obtain ⟨n, hn⟩ := ae2
    exact ⟨m - n + k, by push_cast; linarith⟩
  · intro h
    rw [fuzzyEqZeroEps_eq, decide_eq_true_eq, abs_mul, abs_of_pos hr0] at h
    refine lt_of_le_of_lt (circle_chord (δ := -deltaAngle b (a + θ)) cs2 cv2 ?_) (by rw [abs_neg]; exact h)
    obtain ⟨k, hk⟩ := (C34_delta_angle b (a + θ)).1
    obtain ⟨m, hm⟩ := as2
    obtain ⟨n, hn⟩ := av2
    exact ⟨m - n + k, by push_cast; linarith⟩
  · intro h
    have hno : ∀ e, |e| < 1 / 100000000 → ¬ AngleCongr a (b + η + e) := by
      intro e he hc
      rw [fuzzyEqZeroEps_eq, decide_eq_false_iff_not, abs_mul, abs_of_pos hr0] at h
      apply h
      have : |deltaAngle a (b + η)| = |-e| := by
        apply abs_deltaAngle_of_congr
        · obtain ⟨k, hk⟩ := hc
          exact ⟨-k, by push_cast; linarith⟩
        · rw [abs_neg]; linarith [pi_big]
      rw [this, abs_neg]
      calc r * |e| < r * (1 / 100000000) := mul_lt_mul_of_pos_left he hr0
        _ ≤ eps := by linarith
    exact ⟨fun hs he => ⟨H1 _ _ (k1 _ hs) as2 cs2, H1 _ _ (k1 _ he) ae2 ce2⟩,
      fun hs he => ⟨H1 _ _ (k1 _ hs) as2 cs2, H2 _ _ (k3 hs he) av2 cv2⟩,
      fun hs he => ⟨H2 _ _ (k4 hs he) av1 cv1, H1 _ _ (k1 _ he) ae2 ce2⟩,
      fun hs he hi => ⟨H2 _ _ (k2 _ hi) av1 cv1, H2 _ _ (k5 hs he hi hno) av2 cv2⟩⟩

/-- **C27** (arcs of one circle) Every reported point is within `eps` of both arcs, for radii up to
`10^8 * eps` (the angle tolerance is fixed at `10^-8`), unless the arcs run in opposite directions and
touch where both end (see `C27_wrong_touch_witness`). -/
theorem C27_same_circle_partial (v1 v2 u1 u2 : Vertex ℝ) (eps : ℝ) (heps : 0 < eps) (hv : ProperArc v1 v2) (hu : ProperArc u1 u2)
    (hc : arcCenter u1.pos u2.pos u1.bulge = arcCenter v1.pos v2.pos v1.bulge)
    (hr : arcRadius u1.pos u2.pos u1.bulge = arcRadius v1.pos v2.pos v1.bulge)
    (hbig : arcRadius v1.pos v2.pos v1.bulge ≤ 100000000 * eps)
    (hdir : (v1.bulge < 0 ↔ u1.bulge < 0) ∨ eps ≤ edist v2.pos u2.pos)
    (pt : V2 ℝ) (hpt : pt ∈ (plineSegIntr v1 v2 u1 u2 eps).points) :
    NearSeg v1 v2 pt eps ∧ NearSeg u1 u2 pt eps := by
  have hbv := bulge_ne_zero hv.notLine
  have hbu := bulge_ne_zero hu.notLine
  unfold plineSegIntr at hpt
  simp only [bulgeIsZero_false hv.notLine, bulgeIsZero_false hu.notLine, Bool.and_self, Bool.false_eq_true, if_false,
    segArcRadiusAndCenter_eq v1 v2 hbv hv.ne, segArcRadiusAndCenter_eq u1 u2 hbu hu.ne, hc, hr] at hpt
  have hr0 := arcRadius_pos hv.ne hbv
  have hres : circleCircleIntr (arcRadius v1.pos v2.pos v1.bulge) (arcCenter v1.pos v2.pos v1.bulge)
      (arcRadius v1.pos v2.pos v1.bulge) (arcCenter v1.pos v2.pos v1.bulge) eps = .overlapping := by
    unfold circleCircleIntr
    simp [V2.dot_eq, heps]
  rw [hres] at hpt
  dsimp only at hpt
  set c := arcCenter v1.pos v2.pos v1.bulge with hcdef
  set r := arcRadius v1.pos v2.pos v1.bulge with hrdef
  have hsmall : r * (1 / 100000000) ≤ eps := by linarith
  have avg : (r + r) / Scalar.two = r := by rw [two_eq]; ring
  have hθ : |4 * Real.arctan v1.bulge| ≤ Real.pi := abs_four_arctan_le hv.half
  have hη : |4 * Real.arctan u1.bulge| ≤ Real.pi := abs_four_arctan_le hu.half
  have av1 : AngleCongr (angle c v1.pos) (normalizeRadians (angle c v1.pos)) := (C34_normalize_radians _).1.symm
  have av2 : AngleCongr (angle c v2.pos) (normalizeRadians (angle c v1.pos) + 4 * Real.arctan v1.bulge) :=
    (angle_arcEnd hv.ne hbv).trans (av1.add (AngleCongr.refl _))
  have cv1 : edist v1.pos c = r := by
    have := arcPoint_edist v1.pos v2.pos v1.bulge 0 hbv
    rwa [arcPoint_zero] at this
  have cv2 : edist v2.pos c = r := by
    have := arcPoint_edist v1.pos v2.pos v1.bulge 1 hbv
    rwa [arcPoint_one _ _ _ hbv] at this
  have cu1 : edist u1.pos c = r := by
    have := arcPoint_edist u1.pos u2.pos u1.bulge 0 hbu
    rwa [arcPoint_zero, hc, hr] at this
  have cu2 : edist u2.pos c = r := by
    have := arcPoint_edist u1.pos u2.pos u1.bulge 1 hbu
    rwa [arcPoint_one _ _ _ hbu, hc, hr] at this
  have au := angle_arcEnd hu.ne hbu
  rw [hc] at au
  have H1 : ∀ x pt, NearArc (normalizeRadians (angle c v1.pos)) (4 * Real.arctan v1.bulge) x → AngleCongr (angle c pt) x →
      edist pt c = r → NearSeg v1 v2 pt eps :=
    fun x pt hn hx hp => (nearSeg_of_nearArc hv av1 hn hx hp).mono hsmall
  have near_v1 : ∀ {p q : V2 ℝ} {w1 w2 : Vertex ℝ}, edist p q < eps → OnSeg w1 w2 q → NearSeg w1 w2 p eps :=
    fun h ho => ⟨_, ho, h.le⟩
  have pts2 : ∀ {x y : V2 ℝ} {P : V2 ℝ → Prop}, P x → P y → ∀ {z}, z ∈ [x, y] → P z := by
    intro x y P hx hy z hz
    simp only [List.mem_cons, List.not_mem_nil, or_false] at hz
    rcases hz with rfl | rfl
    · exact hx
    · exact hy
  have on : ∀ {w1 w2 : Vertex ℝ} {q : V2 ℝ}, OnSeg w1 w2 q → NearSeg w1 w2 q eps := fun h => NearSeg.of_on h heps.le
  have o1 := onSeg_first v1 v2
  have o2 := onSeg_second v1 v2
  have q1 := onSeg_first u1 u2
  have q2 := onSeg_second u1 u2
  unfold arcArcOverlap at hpt
  have afb : ∀ b : ℝ, angleFromBulge b = 4 * Real.arctan b := fun b => by simp [angleFromBulge]
  simp only [avg, afb] at hpt
  by_cases hdd : v1.bulge < 0 ↔ u1.bulge < 0
  · have hsame : (v1.bulgeIsNeg == u1.bulgeIsNeg) = true := by
      rw [Vertex.bulgeIsNeg_eq, Vertex.bulgeIsNeg_eq, beq_iff_eq, decide_eq_decide]; exact hdd
    simp only [hsame, if_true] at hpt
    have au1 : AngleCongr (angle c u1.pos) (normalizeRadians (angle c u1.pos)) := (C34_normalize_radians _).1.symm
    have H2 : ∀ x pt, NearArc (normalizeRadians (angle c u1.pos)) (4 * Real.arctan u1.bulge) x → AngleCongr (angle c pt) x →
        edist pt c = r → NearSeg u1 u2 pt eps := fun x pt hn hx hp =>
      (nearSeg_of_nearArc hu (by rw [hc]; exact au1) hn (by rw [hc]; exact hx) (by rw [hc, hr]; exact hp)).mono
        (by rw [hr]; exact hsmall)
    have hd : 0 < 4 * Real.arctan v1.bulge ∧ 0 < 4 * Real.arctan u1.bulge ∨
        4 * Real.arctan v1.bulge < 0 ∧ 4 * Real.arctan u1.bulge < 0 := by
      rcases lt_or_gt_of_ne hbv with h | h
      · right
        exact ⟨by linarith [Real.arctan_lt_zero.mpr h], by linarith [Real.arctan_lt_zero.mpr (hdd.mp h)]⟩
      · left
        have h' : 0 < u1.bulge := lt_of_le_of_ne (not_lt.mp (fun h' => absurd (hdd.mpr h') (not_lt.mpr h.le))) (Ne.symm hbu)
        exact ⟨by linarith [Real.arctan_pos.mpr h], by linarith [Real.arctan_pos.mpr h']⟩
    obtain ⟨k1, k2, k3⟩ := overlap_decide heps hr0 hbig hd hθ hη cv1 cv2 cu1 cu2 av1 av2 au1
      (au.trans (au1.add (AngleCongr.refl _))) H1 H2
    generalize normalizeRadians (angle c v1.pos) = a at *
    generalize normalizeRadians (angle c u1.pos) = b at *
    generalize 4 * Real.arctan v1.bulge = θ at *
    generalize 4 * Real.arctan u1.bulge = η at *
    cases t1 : Scalar.fuzzyEqZeroEps (r * deltaAngle a (b + η)) eps <;>
      cases t2 : Scalar.fuzzyEqZeroEps (r * deltaAngle b (a + θ)) eps <;>
      rw [t1, t2] at hpt <;> dsimp only at hpt
    · obtain ⟨m1, m2, m3, m4⟩ := k3 t1
      split_ifs at hpt with h1 h2 h3 h4 <;> simp only [PlineSegIntr.points] at hpt
      · rw [Bool.and_eq_true] at h1
        obtain ⟨x, y⟩ := m1 h1.1 h1.2
        exact pts2 (P := fun z => NearSeg v1 v2 z eps ∧ NearSeg u1 u2 z eps) ⟨x, on q1⟩ ⟨y, on q2⟩ hpt
      · obtain ⟨x, y⟩ := m2 h2 (by cases h : angleIsWithinSweep (b + η) a θ <;> simp_all)
        exact pts2 (P := fun z => NearSeg v1 v2 z eps ∧ NearSeg u1 u2 z eps) ⟨x, on q1⟩ ⟨on o2, y⟩ hpt
      · obtain ⟨x, y⟩ := m3 (by simpa using h2) h3
        exact pts2 (P := fun z => NearSeg v1 v2 z eps ∧ NearSeg u1 u2 z eps) ⟨on o1, x⟩ ⟨y, on q2⟩ hpt
      · obtain ⟨x, y⟩ := m4 (by simpa using h2) (by simpa using h3) h4
        exact pts2 (P := fun z => NearSeg v1 v2 z eps ∧ NearSeg u1 u2 z eps) ⟨on o1, x⟩ ⟨on o2, y⟩ hpt
      · simp at hpt
    · simp only [PlineSegIntr.points, List.mem_singleton] at hpt
      subst hpt
      exact ⟨near_v1 (k2 t2) o2, on q1⟩
    · simp only [PlineSegIntr.points, List.mem_singleton] at hpt
      subst hpt
      exact ⟨on o1, near_v1 (k1 t1) q2⟩
    · simp only [PlineSegIntr.points] at hpt
      exact pts2 (P := fun z => NearSeg v1 v2 z eps ∧ NearSeg u1 u2 z eps) ⟨near_v1 (k2 t2) o2, on q1⟩
        ⟨near_v1 (by rw [edist_comm]; exact k1 t1) o1, on q2⟩ hpt
  · have hsame : (v1.bulgeIsNeg == u1.bulgeIsNeg) = false := by
      rw [Vertex.bulgeIsNeg_eq, Vertex.bulgeIsNeg_eq, beq_eq_false_iff_ne, ne_eq, decide_eq_decide]; exact hdd
    have hne := hdir.resolve_left hdd
    simp only [hsame, Bool.false_eq_true, if_false, Real.arctan_neg] at hpt
    have au2 : AngleCongr (angle c u2.pos) (normalizeRadians (angle c u2.pos)) := (C34_normalize_radians _).1.symm
    have H2 : ∀ x pt, NearArc (normalizeRadians (angle c u2.pos)) (4 * -Real.arctan u1.bulge) x → AngleCongr (angle c pt) x →
        edist pt c = r → NearSeg u1 u2 pt eps := fun x pt hn hx hp =>
      (nearSeg_of_nearArc hu (a := angle c u1.pos) (by rw [hc]; exact AngleCongr.refl _)
        (nearArc_rev (by
          rw [show 4 * -Real.arctan u1.bulge = -(4 * Real.arctan u1.bulge) by ring] at hn
          exact nearArc_congr (au2.symm.trans au) hn)) (by rw [hc]; exact hx) (by rw [hc, hr]; exact hp)).mono
        (by rw [hr]; exact hsmall)
    have hd : 0 < 4 * Real.arctan v1.bulge ∧ 0 < 4 * -Real.arctan u1.bulge ∨
        4 * Real.arctan v1.bulge < 0 ∧ 4 * -Real.arctan u1.bulge < 0 := by
      rcases lt_or_gt_of_ne hbv with h | h
      · right
        have h' : 0 < u1.bulge := lt_of_le_of_ne (not_lt.mp (fun h' => hdd ⟨fun _ => h', fun _ => h⟩)) (Ne.symm hbu)
        exact ⟨by linarith [Real.arctan_lt_zero.mpr h], by linarith [Real.arctan_pos.mpr h']⟩
      · left
        have h' : u1.bulge < 0 := by
          by_contra h'
          exact hdd ⟨fun h'' => absurd h'' (not_lt.mpr h.le), fun h'' => absurd h'' h'⟩
        exact ⟨by linarith [Real.arctan_pos.mpr h], by linarith [Real.arctan_lt_zero.mpr h']⟩
    have au1 : AngleCongr (angle c u1.pos) (normalizeRadians (angle c u2.pos) + 4 * -Real.arctan u1.bulge) := by
      obtain ⟨k, hk⟩ := au
      obtain ⟨m, hm⟩ := au2
      exact ⟨m - k, by push_cast; linarith⟩
    have hη' : |4 * -Real.arctan u1.bulge| ≤ Real.pi := by
      rw [show 4 * -Real.arctan u1.bulge = -(4 * Real.arctan u1.bulge) by ring, abs_neg]; exact hη
    obtain ⟨k1, k2, k3⟩ := overlap_decide heps hr0 hbig hd hθ hη' cv1 cv2 cu2 cu1 av1 av2 au2 au1 H1 H2
    generalize normalizeRadians (angle c v1.pos) = a at *
    generalize normalizeRadians (angle c u2.pos) = b at *
    generalize 4 * Real.arctan v1.bulge = θ at *
    generalize 4 * -Real.arctan u1.bulge = η at *
    cases t1 : Scalar.fuzzyEqZeroEps (r * deltaAngle a (b + η)) eps <;>
      cases t2 : Scalar.fuzzyEqZeroEps (r * deltaAngle b (a + θ)) eps <;>
      rw [t1, t2] at hpt <;> dsimp only at hpt
    · obtain ⟨m1, m2, m3, m4⟩ := k3 t1
      split_ifs at hpt with h1 h2 h3 h4 <;> simp only [PlineSegIntr.points] at hpt
      · rw [Bool.and_eq_true] at h1
        obtain ⟨x, y⟩ := m1 h1.1 h1.2
        exact pts2 (P := fun z => NearSeg v1 v2 z eps ∧ NearSeg u1 u2 z eps) ⟨y, on q1⟩ ⟨x, on q2⟩ hpt
      · obtain ⟨x, y⟩ := m2 h2 (by cases h : angleIsWithinSweep (b + η) a θ <;> simp_all)
        exact pts2 (P := fun z => NearSeg v1 v2 z eps ∧ NearSeg u1 u2 z eps) ⟨on o2, y⟩ ⟨x, on q2⟩ hpt
      · obtain ⟨x, y⟩ := m3 (by simpa using h2) h3
        exact pts2 (P := fun z => NearSeg v1 v2 z eps ∧ NearSeg u1 u2 z eps) ⟨y, on q1⟩ ⟨on o1, x⟩ hpt
      · obtain ⟨x, y⟩ := m4 (by simpa using h2) (by simpa using h3) h4
        exact pts2 (P := fun z => NearSeg v1 v2 z eps ∧ NearSeg u1 u2 z eps) ⟨on o2, y⟩ ⟨on o1, x⟩ hpt
      · simp at hpt
    · exfalso
      have := k2 t2
      rw [edist_comm] at this
      linarith
    · simp only [PlineSegIntr.points, List.mem_singleton] at hpt
      subst hpt
      exact ⟨on o1, near_v1 (k1 t1) q1⟩
    · simp only [PlineSegIntr.points] at hpt
      exact pts2 (P := fun z => NearSeg v1 v2 z eps ∧ NearSeg u1 u2 z eps)
        ⟨near_v1 (by rw [edist_comm]; exact k1 t1) o1, on q1⟩ ⟨near_v1 (k2 t2) o2, on q2⟩ hpt

end Cavc
