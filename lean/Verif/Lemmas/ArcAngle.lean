import Verif.Lemmas.Arc

/-! Lemmas about the angles of arc points seen from the center. -/

namespace Cavc
open Scalar RealScalar

theorem arg_polar {ρ : ℝ} (hρ : 0 < ρ) (φ : ℝ) :
    AngleCongr (Complex.arg ⟨ρ * Real.cos φ, ρ * Real.sin φ⟩) φ := by
  have h := Complex.arg_mul_cos_add_sin_mul_I_coe_angle hρ (φ : Real.Angle)
  have e : (ρ * ((Real.Angle.cos (φ : Real.Angle) : ℝ) + (Real.Angle.sin (φ : Real.Angle) : ℝ) * Complex.I) : ℂ)
      = ⟨ρ * Real.cos φ, ρ * Real.sin φ⟩ := by
    apply Complex.ext <;> simp [-Complex.ofReal_cos, -Complex.ofReal_sin]
  rw [e, Real.Angle.angle_eq_iff_two_pi_dvd_sub] at h
  obtain ⟨k, hk⟩ := h
  exact ⟨k, by linarith⟩

theorem polar_form (x y : ℝ) : ∃ ρ, 0 ≤ ρ ∧ ρ ^ 2 = x ^ 2 + y ^ 2 ∧
    x = ρ * Real.cos (Complex.arg ⟨x, y⟩) ∧ y = ρ * Real.sin (Complex.arg ⟨x, y⟩) := by
  refine ⟨‖(⟨x, y⟩ : ℂ)‖, norm_nonneg _, ?_, ?_, ?_⟩
  · rw [← Complex.normSq_eq_norm_sq, Complex.normSq_mk]; ring
  · rw [Complex.norm_mul_cos_arg]
  · rw [Complex.norm_mul_sin_arg]

theorem angle_eq (c p : V2 ℝ) : angle c p = Complex.arg ⟨p.x - c.x, p.y - c.y⟩ := rfl

/-- Turning a vector by `θ` changes its angle by `θ`, modulo a full turn. -/
theorem angle_rot {c p q : V2 ℝ} {θ : ℝ} (hne : p ≠ c)
    (hx : q.x - c.x = (rotV θ ⟨p.x - c.x, p.y - c.y⟩).x)
    (hy : q.y - c.y = (rotV θ ⟨p.x - c.x, p.y - c.y⟩).y) :
    AngleCongr (angle c q) (angle c p + θ) := by
  rw [angle_eq, angle_eq]
  obtain ⟨ρ, h0, h1, h2, h3⟩ := polar_form (p.x - c.x) (p.y - c.y)
  set φ := Complex.arg ⟨p.x - c.x, p.y - c.y⟩ with hφ
  have hρ : 0 < ρ := by
    rcases h0.lt_or_eq with h | h
    · exact h
    · exfalso
      apply hne
      rw [V2.ext_iff']
      rw [← h] at h1
      constructor <;> nlinarith [sq_nonneg (p.x - c.x), sq_nonneg (p.y - c.y)]
  have e1 : q.x - c.x = ρ * Real.cos (φ + θ) := by
    rw [hx, Real.cos_add]; simp only [rotV]
    linear_combination Real.cos θ * h2 - Real.sin θ * h3
  have e2 : q.y - c.y = ρ * Real.sin (φ + θ) := by
    rw [hy, Real.sin_add]; simp only [rotV]
    linear_combination Real.sin θ * h2 + Real.cos θ * h3
  rw [e1, e2]
  exact arg_polar hρ (φ + θ)

theorem deltaAngle_of_congr {a b θ : ℝ} (h : AngleCongr b (a + θ)) (h1 : -Real.pi < θ)
    (h2 : θ ≤ Real.pi) : deltaAngle a b = θ := by
  symm
  apply (C34_delta_angle a b).2.2.2 _ _ h1 h2
  obtain ⟨k, hk⟩ := h
  exact ⟨-k, by push_cast; linarith⟩

theorem abs_deltaAngle_of_congr {a b θ : ℝ} (h : AngleCongr b (a + θ)) (h1 : |θ| ≤ Real.pi) :
    |deltaAngle a b| = |θ| := by
  rw [abs_le] at h1
  rcases h1.1.lt_or_eq with h' | h'
  · rw [deltaAngle_of_congr h h' h1.2]
  · have : AngleCongr b (a + Real.pi) := by
      obtain ⟨k, hk⟩ := h
      exact ⟨k - 1, by push_cast; linarith⟩
    rw [deltaAngle_of_congr this (by linarith [Real.pi_pos]) le_rfl, ← h', abs_neg]

theorem deltaAngleSigned_of_congr {a b θ : ℝ} (h : AngleCongr b (a + θ)) (h1 : |θ| ≤ Real.pi)
    {neg : Bool} (hn : neg = true → θ ≤ 0) (hp : neg = false → 0 ≤ θ) :
    deltaAngleSigned a b neg = θ := by
  have := abs_deltaAngle_of_congr h h1
  unfold deltaAngleSigned
  cases neg
  · simp only [Bool.false_eq_true, if_false, abs_eq, this]
    exact abs_of_nonneg (hp rfl)
  · simp only [if_true, abs_eq, this]
    show -|θ| = θ
    rw [abs_of_nonpos (hn rfl), neg_neg]

theorem start_ne_center {p q : V2 ℝ} {b : ℝ} (h : p ≠ q) (hb : b ≠ 0) : p ≠ arcCenter p q b := by
  intro he
  have h1 := start_dist_sq p q b hb
  have h2 := arcRadius_pos h hb
  rw [← he] at h1
  simp at h1
  nlinarith

/-- Angle of an arc point relative to the start. -/
theorem angle_arcPoint {p q : V2 ℝ} {b : ℝ} (h : p ≠ q) (hb : b ≠ 0) (t : ℝ) :
    AngleCongr (angle (arcCenter p q b) (arcPoint p q b t))
      (angle (arcCenter p q b) p + t * (4 * Real.arctan b)) := by
  apply angle_rot (start_ne_center h hb)
  · simp [arcPoint]
  · simp [arcPoint]

theorem angle_arcEnd {p q : V2 ℝ} {b : ℝ} (h : p ≠ q) (hb : b ≠ 0) :
    AngleCongr (angle (arcCenter p q b) q)
      (angle (arcCenter p q b) p + 4 * Real.arctan b) := by
  have := angle_arcPoint h hb 1
  rwa [arcPoint_one p q b hb, one_mul] at this

/-- A point at distance `r > 0` of the center is determined by its angle. -/
theorem pointOnCircle_eq_arcPoint {p q : V2 ℝ} {b : ℝ} (hb : b ≠ 0) (t : ℝ) :
    pointOnCircle (arcRadius p q b) (arcCenter p q b)
      (angle (arcCenter p q b) p + t * (4 * Real.arctan b)) = arcPoint p q b t := by
  obtain ⟨ρ, h0, h1, h2, h3⟩ := polar_form (p.x - (arcCenter p q b).x) (p.y - (arcCenter p q b).y)
  have hρ : ρ = arcRadius p q b := by
    rw [start_dist_sq p q b hb] at h1
    exact (pow_left_inj₀ h0 (arcRadius_nonneg p q b) (by norm_num)).mp h1
  rw [V2.ext_iff']
  simp only [pointOnCircle, arcPoint, rotV, cos_eq, sin_eq, angle_eq, Real.cos_add, Real.sin_add]
  rw [hρ] at h2 h3
  constructor
  · linear_combination -Real.cos (t * (4 * Real.arctan b)) * h2 + Real.sin (t * (4 * Real.arctan b)) * h3
  · linear_combination -Real.sin (t * (4 * Real.arctan b)) * h2 - Real.cos (t * (4 * Real.arctan b)) * h3

theorem abs_four_arctan_le {b : ℝ} (h : |b| ≤ 1) : |4 * Real.arctan b| ≤ Real.pi :=
  (C35_half_circle b).1.mp h

end Cavc
