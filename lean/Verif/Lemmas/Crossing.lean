import Verif.Lemmas.WindingPath

/-! # What a segment adds to the winding number of near points -/

set_option linter.unusedSectionVars false

namespace Cavc
open Real Pline

/-- the angle of a vector in `(0, 2π]` -/
noncomputable def ang (x y : ℝ) : ℝ := π + Complex.arg ⟨-x, -y⟩

theorem ang_pos (x y : ℝ) : 0 < ang x y := by
  have := Complex.neg_pi_lt_arg (⟨-x, -y⟩ : ℂ); unfold ang; linarith

theorem ang_le (x y : ℝ) : ang x y ≤ 2 * π := by
  have := Complex.arg_le_pi (⟨-x, -y⟩ : ℂ); unfold ang; linarith

theorem ang_dir {x y : ℝ} (h : x ≠ 0 ∨ y ≠ 0) : Dir (ang x y) x y := by
  have hz : (⟨-x, -y⟩ : ℂ) ≠ 0 := by
    intro e
    have e1 := congrArg Complex.re e
    have e2 := congrArg Complex.im e
    simp at e1 e2
    tauto
  refine ⟨‖(⟨-x, -y⟩ : ℂ)‖, norm_pos_iff.mpr hz, ?_, ?_⟩
  · unfold ang
    have h1 := Complex.norm_mul_cos_arg (⟨-x, -y⟩ : ℂ)
    rw [add_comm, cos_add_pi]
    simp only at h1
    linarith
  · unfold ang
    have h1 := Complex.norm_mul_sin_arg (⟨-x, -y⟩ : ℂ)
    rw [add_comm, sin_add_pi]
    simp only at h1
    linarith

theorem ang_continuousAt {x y : ℝ} (h : ¬ (0 ≤ x ∧ y = 0)) : ContinuousAt (fun u : ℝ × ℝ => ang u.1 u.2) (x, y) := by
  unfold ang
  refine continuousAt_const.add ?_
  have hs : (⟨-x, -y⟩ : ℂ) ∈ Complex.slitPlane := by
    rw [Complex.mem_slitPlane_iff]
    simp only
    by_contra hc
    push Not at hc
    exact h ⟨by linarith [hc.1], by linarith [hc.2]⟩
  have h1 : ContinuousAt (fun u : ℝ × ℝ => (⟨-u.1, -u.2⟩ : ℂ)) (x, y) := by
    have : (fun u : ℝ × ℝ => (⟨-u.1, -u.2⟩ : ℂ)) = fun u => -((u.1 : ℂ) + (u.2 : ℂ) * Complex.I) := by
      funext u
      apply Complex.ext <;> simp
    rw [this]
    fun_prop
  exact ContinuousAt.comp (g := Complex.arg) (Complex.continuousAt_arg hs) h1

/-- the point is on the ray to the right -/
def OnRay (z : ℝ × ℝ) (Y : V2 ℝ) : Prop := Y.y = z.2 ∧ z.1 < Y.x

open Classical in
/-- counts the point if it is on the ray to the right -/
noncomputable def onRay (z : ℝ × ℝ) (Y : V2 ℝ) : ℤ := if OnRay z Y then 1 else 0

/-- the angle of a vector relative to a frame -/
noncomputable def frameTurn (X Y F : ℝ) : ℝ := arctan ((Y * cos F - X * sin F) / (X * cos F + Y * sin F))

theorem dir_cos_sin {F A x y : ℝ} (h1 : Dir F x y) (h2 : Dir A x y) : cos F = cos A ∧ sin F = sin A := by
  obtain ⟨k, rfl⟩ := dir_congr h1 h2
  rw [show A + 2 * π * k = A + k * (2 * π) by ring]
  exact ⟨cos_add_int_mul_two_pi A k, sin_add_int_mul_two_pi A k⟩

open Classical in
/-- How the angle of a fixed point changes for near observers. -/
theorem ang_change (z : ℝ × ℝ) (Y : V2 ℝ) (hne : Y ≠ ⟨z.1, z.2⟩) :
    ∃ δ > 0, ∀ w ∈ Metric.ball z δ, ∀ F, Dir F (Y.x - z.1) (Y.y - z.2) →
      ang (Y.x - w.1) (Y.y - w.2) = ang (Y.x - z.1) (Y.y - z.2) + frameTurn (Y.x - w.1) (Y.y - w.2) F
        - 2 * π * ((if w.2 < z.2 then onRay z Y else 0 : ℤ) : ℝ) := by
  have hnz : Y.x - z.1 ≠ 0 ∨ Y.y - z.2 ≠ 0 := by
    by_contra hc
    push Not at hc
    exact hne (V2.ext_iff'.mpr ⟨by simp; linarith [hc.1], by simp; linarith [hc.2]⟩)
  have hA := ang_dir hnz
  obtain ⟨ρ, hρ, ex, ey⟩ := hA
  have hp := pi_pos
  -- the frame expression is positive nearby
  have hpos : ∀ w ∈ Metric.ball z (ρ / 2), ∀ F, Dir F (Y.x - z.1) (Y.y - z.2) →
      0 < (Y.x - w.1) * cos F + (Y.y - w.2) * sin F := by
    intro w hw F hF
    obtain ⟨hc, hs⟩ := dir_cos_sin hF ⟨ρ, hρ, ex, ey⟩
    rw [hc, hs]
    rw [Metric.mem_ball, Prod.dist_eq, max_lt_iff, Real.dist_eq, Real.dist_eq, abs_lt, abs_lt] at hw
    generalize ang (Y.x - z.1) (Y.y - z.2) = A at *
    have hsc := sin_sq_add_cos_sq A
    have e1 : (Y.x - w.1) = ρ * cos A + (z.1 - w.1) := by linarith
    have e2 : (Y.y - w.2) = ρ * sin A + (z.2 - w.2) := by linarith
    rw [e1, e2]
    have b1 : |(z.1 - w.1) * cos A| ≤ |z.1 - w.1| := by
      rw [abs_mul]; exact mul_le_of_le_one_right (abs_nonneg _) (abs_cos_le_one A)
    have b2 : |(z.2 - w.2) * sin A| ≤ |z.2 - w.2| := by
      rw [abs_mul]; exact mul_le_of_le_one_right (abs_nonneg _) (abs_sin_le_one A)
    have c1 : |z.1 - w.1| < ρ / 2 := by rw [abs_lt]; constructor <;> linarith [hw.1.1, hw.1.2]
    have c2 : |z.2 - w.2| < ρ / 2 := by rw [abs_lt]; constructor <;> linarith [hw.2.1, hw.2.2]
    have d1 := (abs_lt.mp (lt_of_le_of_lt b1 c1)).1
    have d2 := (abs_lt.mp (lt_of_le_of_lt b2 c2)).1
    nlinarith
  -- the angle seen from `w` up to full turns
  have hk : ∀ w ∈ Metric.ball z (ρ / 2), ∀ F, Dir F (Y.x - z.1) (Y.y - z.2) → ∃ k : ℤ,
      ang (Y.x - w.1) (Y.y - w.2) = ang (Y.x - z.1) (Y.y - z.2) + frameTurn (Y.x - w.1) (Y.y - w.2) F + 2 * π * k := by
    intro w hw F hF
    have h0 := hpos w hw F hF
    have h1 := hpos w hw _ ⟨ρ, hρ, ex, ey⟩
    have hd := frame_dir h1
    have hnw : Y.x - w.1 ≠ 0 ∨ Y.y - w.2 ≠ 0 := by
      by_contra hc
      push Not at hc
      rw [hc.1, hc.2] at h0
      simp at h0
    obtain ⟨k, e⟩ := dir_congr (ang_dir hnw) hd
    obtain ⟨hc, hs⟩ := dir_cos_sin hF ⟨ρ, hρ, ex, ey⟩
    refine ⟨k, ?_⟩
    rw [e]
    unfold frameTurn
    rw [hc, hs]
  have hft : ∀ X Y F, -(π / 2) < frameTurn X Y F ∧ frameTurn X Y F < π / 2 :=
    fun X Y F => ⟨neg_pi_div_two_lt_arctan _, arctan_lt_pi_div_two _⟩
  by_cases hray : OnRay z Y
  · -- on the ray
    have hy0 : Y.y - z.2 = 0 := by rw [hray.1]; ring
    have hx0 : 0 < Y.x - z.1 := by linarith [hray.2]
    have hA2 : ang (Y.x - z.1) (Y.y - z.2) = 2 * π := by
      unfold ang
      rw [hy0]
      have : (⟨-(Y.x - z.1), -0⟩ : ℂ) = ((-(Y.x - z.1) : ℝ) : ℂ) := by apply Complex.ext <;> simp
      rw [this, Complex.arg_ofReal_of_neg (by linarith)]
      ring
    refine ⟨ρ / 2, by positivity, ?_⟩
    intro w hw F hF
    obtain ⟨k, e⟩ := hk w hw F hF
    have hpw := hpos w hw F hF
    have hb1 := ang_pos (Y.x - w.1) (Y.y - w.2)
    have hb2 := ang_le (Y.x - w.1) (Y.y - w.2)
    obtain ⟨f1, f2⟩ := hft (Y.x - w.1) (Y.y - w.2) F
    obtain ⟨hc, hs⟩ := dir_cos_sin hF ⟨ρ, hρ, ex, ey⟩
    rw [hA2, cos_two_pi] at hc
    rw [hA2, sin_two_pi] at hs
    have hfe : frameTurn (Y.x - w.1) (Y.y - w.2) F = arctan ((Y.y - w.2) / (Y.x - w.1)) := by
      unfold frameTurn; rw [hc, hs]; simp
    rw [hc, hs] at hpw
    have hX : 0 < Y.x - w.1 := by linarith
    rw [hA2] at e ⊢
    have hon : onRay z Y = 1 := by unfold onRay; rw [if_pos hray]
    by_cases hlt : w.2 < z.2
    · rw [if_pos hlt, hon]
      have hpos' : 0 < frameTurn (Y.x - w.1) (Y.y - w.2) F := by
        rw [hfe, arctan_pos]
        exact div_pos (by have := hray.1; linarith) hX
      have hkk : k = -1 := by
        apply int_eq <;> push_cast <;> nlinarith
      rw [e, hkk]; push_cast; ring
    · rw [if_neg hlt]
      have hneg : frameTurn (Y.x - w.1) (Y.y - w.2) F ≤ 0 := by
        rw [hfe]
        have h5 : (Y.y - w.2) / (Y.x - w.1) ≤ 0 := div_nonpos_of_nonpos_of_nonneg (by have := hray.1; linarith) hX.le
        have := arctan_strictMono.monotone h5
        rwa [arctan_zero] at this
      have hkk : k = 0 := by
        apply int_eq <;> push_cast <;> nlinarith
      rw [e, hkk]; push_cast; ring
  · -- not on the ray: continuous
    have hon : onRay z Y = 0 := by unfold onRay; rw [if_neg hray]
    have hcont : ContinuousAt (fun w : ℝ × ℝ => ang (Y.x - w.1) (Y.y - w.2)) z := by
      have h1 : ContinuousAt (fun u : ℝ × ℝ => ang u.1 u.2) (Y.x - z.1, Y.y - z.2) := by
        apply ang_continuousAt
        rintro ⟨g1, g2⟩
        rcases eq_or_lt_of_le g1 with g | g
        · rcases hnz with h | h
          · exact h g.symm
          · exact h g2
        · exact hray ⟨by linarith, by linarith⟩
      have h2 : ContinuousAt (fun w : ℝ × ℝ => (Y.x - w.1, Y.y - w.2)) z := by fun_prop
      exact ContinuousAt.comp (g := fun u : ℝ × ℝ => ang u.1 u.2) (f := fun w : ℝ × ℝ => (Y.x - w.1, Y.y - w.2)) (x := z) h1 h2
    obtain ⟨δ, hδ, hball⟩ := Metric.continuousAt_iff.mp hcont (π / 2) (by positivity)
    refine ⟨min δ (ρ / 2), lt_min hδ (by positivity), ?_⟩
    intro w hw F hF
    have hw1 := Metric.ball_subset_ball (min_le_left δ (ρ / 2)) hw
    have hw2 := Metric.ball_subset_ball (min_le_right δ (ρ / 2)) hw
    obtain ⟨k, e⟩ := hk w hw2 F hF
    obtain ⟨f1, f2⟩ := hft (Y.x - w.1) (Y.y - w.2) F
    have hd := hball (Metric.mem_ball.mp hw1)
    rw [Real.dist_eq, abs_lt] at hd
    have hkk : k = 0 := by
      apply int_eq <;> push_cast <;> nlinarith
    rw [e, hkk, hon]; simp

/-- the points of a segment, in the plane -/
def segTrace (s : Vertex ℝ × Vertex ℝ) : Set (ℝ × ℝ) := {z | OnSeg s.1 s.2 ⟨z.1, z.2⟩}

/-- what a segment adds to the winding number -/
noncomputable def segW (z : ℝ × ℝ) (s : Vertex ℝ × Vertex ℝ) : ℤ := segWinding ⟨z.1, z.2⟩ s

theorem segTrace_eq (s : Vertex ℝ × Vertex ℝ) :
    segTrace s = (fun t => ((segCurve s.1 s.2 t).x, (segCurve s.1 s.2 t).y)) '' Set.Icc 0 1 := by
  ext z
  constructor
  · rintro ⟨t, h0, h1, e⟩
    refine ⟨t, ⟨h0, h1⟩, ?_⟩
    simp only [← e]
  · rintro ⟨t, ⟨h0, h1⟩, rfl⟩
    exact ⟨t, h0, h1, rfl⟩

theorem segTrace_isCompact (s : Vertex ℝ × Vertex ℝ) : IsCompact (segTrace s) := by
  rw [segTrace_eq]
  exact isCompact_Icc.image_of_continuousOn (segCurve_continuous s.1 s.2).continuousOn

/-- the segments whose turns are counted -/
def Proper (s : Vertex ℝ × Vertex ℝ) : Prop := IsLine s.1 ∨ ProperArc s.1 s.2

theorem ends_on (s : Vertex ℝ × Vertex ℝ) : (s.1.x, s.1.y) ∈ segTrace s ∧ (s.2.x, s.2.y) ∈ segTrace s := by
  constructor
  · exact ⟨0, le_rfl, zero_le_one, (segCurve_ends s.1 s.2).1.symm⟩
  · exact ⟨1, zero_le_one, le_rfl, (segCurve_ends s.1 s.2).2.symm⟩

/-- What a segment adds changes for near points only where they pass the height of an end of the segment that is to the right. -/
theorem segW_change (s : Vertex ℝ × Vertex ℝ) (h : Proper s) {z : ℝ × ℝ} (hz : z ∉ segTrace s) :
    ∃ δ > 0, ∀ w ∈ Metric.ball z δ, w ∉ segTrace s ∧
      segW w s = segW z s + if w.2 < z.2 then onRay z s.2.pos - onRay z s.1.pos else 0 := by
  obtain ⟨v1, v2⟩ := s
  have hn1 : v1.pos ≠ ⟨z.1, z.2⟩ := by
    intro e
    apply hz
    have := (ends_on (v1, v2)).1
    have e1 := congrArg V2.x e
    have e2 := congrArg V2.y e
    simp only [Vertex.pos] at e1 e2
    rw [show (v1, v2).1.x = z.1 from e1, show (v1, v2).1.y = z.2 from e2] at this
    exact this
  have hn2 : v2.pos ≠ ⟨z.1, z.2⟩ := by
    intro e
    apply hz
    have := (ends_on (v1, v2)).2
    have e1 := congrArg V2.x e
    have e2 := congrArg V2.y e
    simp only [Vertex.pos] at e1 e2
    rw [show (v1, v2).2.x = z.1 from e1, show (v1, v2).2.y = z.2 from e2] at this
    exact this
  obtain ⟨δ1, hδ1, hc1⟩ := ang_change z v1.pos hn1
  obtain ⟨δ2, hδ2, hc2⟩ := ang_change z v2.pos hn2
  obtain ⟨ε, hε, hball⟩ := Metric.isOpen_iff.mp (segTrace_isCompact (v1, v2)).isClosed.isOpen_compl z hz
  refine ⟨min (ε / 2) (min δ1 δ2), by positivity, ?_⟩
  intro w hw
  have hwε := Metric.ball_subset_ball (min_le_left _ _) hw
  have hwd := Metric.ball_subset_ball (min_le_right _ _) hw
  have hw1 := Metric.ball_subset_ball (min_le_left _ _) hwd
  have hw2 := Metric.ball_subset_ball (min_le_right _ _) hwd
  have hwo : w ∉ segTrace (v1, v2) := hball (Metric.ball_subset_ball (by linarith) hwε)
  refine ⟨hwo, ?_⟩
  obtain ⟨θ, hθ, hturn⟩ := seg_turn v1 v2 h ⟨z.1, z.2⟩ hz
  have hpos : ∀ t ∈ Set.Icc (0 : ℝ) 1, 0 < ((segCurve v1 v2 t).x - w.1) * cos (θ t) + ((segCurve v1 v2 t).y - w.2) * sin (θ t) := by
    intro t ht
    obtain ⟨ρ, hρ, ex, ey⟩ := hθ.2 t ht
    simp only at ex ey
    have hx : (segCurve v1 v2 t).x - w.1 = ρ * cos (θ t) + (z.1 - w.1) := by linarith
    have hy : (segCurve v1 v2 t).y - w.2 = ρ * sin (θ t) + (z.2 - w.2) := by linarith
    rw [hx, hy]
    have hfar : ε ≤ ρ := by
      by_contra hlt
      push Not at hlt
      have hmem : ((segCurve v1 v2 t).x, (segCurve v1 v2 t).y) ∈ segTrace (v1, v2) := ⟨t, ht.1, ht.2, rfl⟩
      refine hball (a := ((segCurve v1 v2 t).x, (segCurve v1 v2 t).y)) ?_ hmem
      rw [Metric.mem_ball, Prod.dist_eq, max_lt_iff, Real.dist_eq, Real.dist_eq]
      simp only
      rw [ex, ey, abs_mul, abs_mul, abs_of_pos hρ]
      exact ⟨lt_of_le_of_lt (mul_le_of_le_one_right hρ.le (abs_cos_le_one _)) hlt,
        lt_of_le_of_lt (mul_le_of_le_one_right hρ.le (abs_sin_le_one _)) hlt⟩
    rw [Metric.mem_ball, Prod.dist_eq, max_lt_iff, Real.dist_eq, Real.dist_eq, abs_lt, abs_lt] at hwε
    have hsc := sin_sq_add_cos_sq (θ t)
    have b1 : |(z.1 - w.1) * cos (θ t)| ≤ |z.1 - w.1| := by
      rw [abs_mul]; exact mul_le_of_le_one_right (abs_nonneg _) (abs_cos_le_one _)
    have b2 : |(z.2 - w.2) * sin (θ t)| ≤ |z.2 - w.2| := by
      rw [abs_mul]; exact mul_le_of_le_one_right (abs_nonneg _) (abs_sin_le_one _)
    have c1 : |z.1 - w.1| < ε / 2 := by rw [abs_lt]; constructor <;> linarith [hwε.1.1, hwε.1.2]
    have c2 : |z.2 - w.2| < ε / 2 := by rw [abs_lt]; constructor <;> linarith [hwε.2.1, hwε.2.2]
    have d1 := (abs_lt.mp (lt_of_le_of_lt b1 c1)).1
    have d2 := (abs_lt.mp (lt_of_le_of_lt b2 c2)).1
    nlinarith
  have hcurve := segCurve_continuous v1 v2
  obtain ⟨ψ, hψ1, hψ2, hψ3⟩ := frame_angle θ (fun t => (segCurve v1 v2 t).x - w.1) (fun t => (segCurve v1 v2 t).y - w.2) _ hθ.1
    ((continuous_fst.comp hcurve).sub continuous_const).continuousOn
    ((continuous_snd.comp hcurve).sub continuous_const).continuousOn hpos
  obtain ⟨es0, es1⟩ := segCurve_ends v1 v2
  have hD0 : Dir (θ 0) (v1.pos.x - z.1) (v1.pos.y - z.2) := by
    have := hθ.2 0 ⟨le_rfl, zero_le_one⟩
    rwa [es0] at this
  have hD1 : Dir (θ 1) (v2.pos.x - z.1) (v2.pos.y - z.2) := by
    have := hθ.2 1 ⟨zero_le_one, le_rfl⟩
    rwa [es1] at this
  have nz : ∀ (v : Vertex ℝ) (u : ℝ × ℝ), v.pos ≠ ⟨u.1, u.2⟩ → v.x - u.1 ≠ 0 ∨ v.y - u.2 ≠ 0 := by
    intro v u hne
    by_contra hc
    push Not at hc
    exact hne (V2.ext_iff'.mpr ⟨by simp [Vertex.pos]; linarith [hc.1], by simp [Vertex.pos]; linarith [hc.2]⟩)
  have hm1 : v1.pos ≠ ⟨w.1, w.2⟩ := by
    intro e
    apply hwo
    exact ⟨0, le_rfl, zero_le_one, by rw [es0]; exact e.symm⟩
  have hm2 : v2.pos ≠ ⟨w.1, w.2⟩ := by
    intro e
    apply hwo
    exact ⟨1, zero_le_one, le_rfl, by rw [es1]; exact e.symm⟩
  have T1 := hturn _ _ (ang_dir (nz v1 z hn1)) (ang_pos _ _) (ang_le _ _) (ang_dir (nz v2 z hn2)) (ang_pos _ _) (ang_le _ _)
  have T2 := segWinding_turn h (pt := ⟨w.1, w.2⟩) hwo (θ := ψ) ⟨hψ1, hψ2⟩ (ang_dir (nz v1 w hm1)) (ang_pos _ _) (ang_le _ _)
    (ang_dir (nz v2 w hm2)) (ang_pos _ _) (ang_le _ _)
  have A1 := hc1 w hw1 _ hD0
  have A2 := hc2 w hw2 _ hD1
  have P0 := hψ3 0
  have P1 := hψ3 1
  simp only [es0, es1] at P0 P1
  unfold frameTurn at A1 A2
  simp only [Vertex.pos] at A1 A2 P0 P1
  rw [A1, A2, P1, P0] at T2
  apply two_pi_cancel
  unfold segW
  simp only [Vertex.pos]
  split_ifs with hlt
  · rw [if_pos hlt] at T2
    rw [if_pos hlt] at T2
    push_cast
    linarith
  · rw [if_neg hlt] at T2
    rw [if_neg hlt] at T2
    push_cast at T2 ⊢
    linarith

end Cavc
