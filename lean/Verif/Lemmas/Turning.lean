import Mathlib.Analysis.SpecialFunctions.Trigonometric.Angle
import Mathlib.Topology.Order.IntermediateValue
import Verif.Spec.Winding

/-! # Continuous angles -/

namespace Cavc
open Real

theorem dir_congr {θ ψ x y : ℝ} (h1 : Dir θ x y) (h2 : Dir ψ x y) : ∃ k : ℤ, θ = ψ + 2 * π * k := by
  obtain ⟨r, hr, hx, hy⟩ := h1
  obtain ⟨s, hs, hx', hy'⟩ := h2
  have e1 : r ^ 2 = x ^ 2 + y ^ 2 := by
    rw [hx, hy]; linear_combination (-r ^ 2) * (sin_sq_add_cos_sq θ)
  have e2 : s ^ 2 = x ^ 2 + y ^ 2 := by
    rw [hx', hy']; linear_combination (-s ^ 2) * (sin_sq_add_cos_sq ψ)
  have e : r = s := by
    have : r ^ 2 = s ^ 2 := by rw [e1, e2]
    exact (pow_left_inj₀ hr.le hs.le two_ne_zero).mp this
  subst e
  have hc : cos θ = cos ψ := by
    have : r * cos θ = r * cos ψ := by rw [← hx, ← hx']
    exact mul_left_cancel₀ hr.ne' this
  have hsn : sin θ = sin ψ := by
    have : r * sin θ = r * sin ψ := by rw [← hy, ← hy']
    exact mul_left_cancel₀ hr.ne' this
  have := Real.Angle.cos_sin_inj hc hsn
  rw [Real.Angle.angle_eq_iff_two_pi_dvd_sub] at this
  obtain ⟨k, hk⟩ := this
  exact ⟨k, by linarith⟩

theorem dir_shift {θ x y : ℝ} (h : Dir θ x y) (k : ℤ) : Dir (θ + 2 * π * k) x y := by
  obtain ⟨r, hr, hx, hy⟩ := h
  refine ⟨r, hr, ?_, ?_⟩
  · rw [show θ + 2 * π * k = θ + k * (2 * π) by ring, cos_add_int_mul_two_pi, hx]
  · rw [show θ + 2 * π * k = θ + k * (2 * π) by ring, sin_add_int_mul_two_pi, hy]

theorem dir_cross {θ0 θ1 x0 y0 x1 y1 : ℝ} (h0 : Dir θ0 x0 y0) (h1 : Dir θ1 x1 y1) :
    ∃ k : ℝ, 0 < k ∧ x0 * y1 - x1 * y0 = k * sin (θ1 - θ0) ∧ x0 * x1 + y0 * y1 = k * cos (θ1 - θ0) := by
  obtain ⟨r, hr, hx, hy⟩ := h0
  obtain ⟨s, hs, hx', hy'⟩ := h1
  refine ⟨r * s, mul_pos hr hs, ?_, ?_⟩
  · rw [sin_sub, hx, hy, hx', hy']; ring
  · rw [cos_sub, hx, hy, hx', hy']; ring

/-- every non-zero vector has an angle in `(0, 2π]` -/
theorem dir_exists {x y : ℝ} (h : x ≠ 0 ∨ y ≠ 0) : ∃ a, Dir a x y ∧ 0 < a ∧ a ≤ 2 * π := by
  have hz : (⟨x, y⟩ : ℂ) ≠ 0 := by
    intro e
    have e1 := congrArg Complex.re e
    have e2 := congrArg Complex.im e
    simp at e1 e2
    tauto
  have hd : Dir (Complex.arg ⟨x, y⟩) x y :=
    ⟨‖(⟨x, y⟩ : ℂ)‖, norm_pos_iff.mpr hz, by rw [Complex.norm_mul_cos_arg], by rw [Complex.norm_mul_sin_arg]⟩
  have h1 := Complex.neg_pi_lt_arg (⟨x, y⟩ : ℂ)
  have h2 := Complex.arg_le_pi (⟨x, y⟩ : ℂ)
  have hp := pi_pos
  by_cases h0 : 0 < Complex.arg ⟨x, y⟩
  · exact ⟨_, hd, h0, by linarith⟩
  · push Not at h0
    have := dir_shift hd 1
    refine ⟨_, this, ?_, ?_⟩ <;> push_cast <;> linarith

theorem dir_y_pos {a x y : ℝ} (h : Dir a x y) (h0 : 0 < a) (h2 : a ≤ 2 * π) : 0 < y ↔ a < π := by
  obtain ⟨r, hr, hx, hy⟩ := h
  constructor
  · intro hp
    by_contra hc
    push Not at hc
    have : sin a ≤ 0 := by
      have := sin_nonneg_of_nonneg_of_le_pi (x := a - π) (by linarith) (by linarith)
      rw [sin_sub_pi] at this; linarith
    have := mul_nonpos_of_nonneg_of_nonpos hr.le this
    rw [← hy] at this; linarith
  · intro hc
    rw [hy]; exact mul_pos hr (sin_pos_of_pos_of_lt_pi h0 hc)

theorem frame_dir {X Y F : ℝ} (hg : 0 < X * cos F + Y * sin F) :
    Dir (F + arctan ((Y * cos F - X * sin F) / (X * cos F + Y * sin F))) X Y := by
  obtain ⟨g, eg⟩ : ∃ g, g = X * cos F + Y * sin F := ⟨_, rfl⟩
  obtain ⟨h, eh⟩ : ∃ h, h = Y * cos F - X * sin F := ⟨_, rfl⟩
  have hX : X = g * cos F - h * sin F := by
    rw [eg, eh]; linear_combination (-X) * (sin_sq_add_cos_sq F)
  have hY : Y = g * sin F + h * cos F := by
    rw [eg, eh]; linear_combination (-Y) * (sin_sq_add_cos_sq F)
  rw [← eg] at hg ⊢
  rw [← eh]
  have hsq : 0 < √(1 + (h / g) ^ 2) := Real.sqrt_pos.mpr (by positivity)
  refine ⟨g * √(1 + (h / g) ^ 2), mul_pos hg hsq, ?_, ?_⟩
  · rw [cos_add, cos_arctan, sin_arctan, hX]
    generalize √(1 + (h / g) ^ 2) = S at *
    field_simp
  · rw [sin_add, cos_arctan, sin_arctan, hY]
    generalize √(1 + (h / g) ^ 2) = S at *
    field_simp

/-- An angle relative to a moving frame in which the vector points forward. -/
theorem frame_angle (φ x y : ℝ → ℝ) (s : Set ℝ) (hφ : ContinuousOn φ s) (hx : ContinuousOn x s)
    (hy : ContinuousOn y s) (hpos : ∀ t ∈ s, 0 < x t * cos (φ t) + y t * sin (φ t)) :
    ∃ θ : ℝ → ℝ, ContinuousOn θ s ∧ (∀ t ∈ s, Dir (θ t) (x t) (y t)) ∧
      ∀ t, θ t = φ t + arctan ((y t * cos (φ t) - x t * sin (φ t)) / (x t * cos (φ t) + y t * sin (φ t))) := by
  refine ⟨fun t => φ t + arctan ((y t * cos (φ t) - x t * sin (φ t)) / (x t * cos (φ t) + y t * sin (φ t))), ?_, ?_, fun _ => rfl⟩
  · have hc := Real.continuous_cos.comp_continuousOn hφ
    have hs := Real.continuous_sin.comp_continuousOn hφ
    exact hφ.add (continuous_arctan.comp_continuousOn
      (((hy.mul hc).sub (hx.mul hs)).div ((hx.mul hc).add (hy.mul hs)) (fun t ht => (hpos t ht).ne')))
  · intro t ht
    exact frame_dir (hpos t ht)

/-- Two continuous angles of the same curve change by the same amount. -/
theorem angle_change_unique {x y θ ψ : ℝ → ℝ} {a b : ℝ} (hab : a ≤ b)
    (h1 : ContinuousOn θ (Set.Icc a b)) (h2 : ContinuousOn ψ (Set.Icc a b))
    (d1 : ∀ t ∈ Set.Icc a b, Dir (θ t) (x t) (y t)) (d2 : ∀ t ∈ Set.Icc a b, Dir (ψ t) (x t) (y t)) :
    θ b - θ a = ψ b - ψ a := by
  have hd : ContinuousOn (fun t => θ t - ψ t) (Set.Icc a b) := h1.sub h2
  have hk : ∀ t ∈ Set.Icc a b, ∃ k : ℤ, θ t - ψ t = 2 * π * k := by
    intro t ht
    obtain ⟨k, e⟩ := dir_congr (d1 t ht) (d2 t ht)
    exact ⟨k, by rw [e]; ring⟩
  have hp := pi_pos
  obtain ⟨ka, ea⟩ := hk a ⟨le_rfl, hab⟩
  obtain ⟨kb, eb⟩ := hk b ⟨hab, le_rfl⟩
  have half : ∀ k m : ℤ, 2 * π * ((m : ℝ) + 1 / 2) ≠ 2 * π * k := by
    intro k m h
    have := mul_left_cancel₀ (by positivity : (2 * π) ≠ 0) h
    have h2 : ((2 * m + 1 : ℤ) : ℝ) = ((2 * k : ℤ) : ℝ) := by push_cast; linarith
    have := Int.cast_injective h2
    omega
  have : ka = kb := by
    rcases lt_trichotomy ka kb with h | h | h
    · exfalso
      have hle : ((ka : ℝ) + 1) ≤ kb := by exact_mod_cast h
      have hm : 2 * π * ((ka : ℝ) + 1 / 2) ∈ Set.Icc (θ a - ψ a) (θ b - ψ b) := by
        rw [ea, eb]; constructor <;> nlinarith
      obtain ⟨t, ht, e⟩ := intermediate_value_Icc hab hd hm
      obtain ⟨k, ek⟩ := hk t ht
      exact half k ka (by rw [← ek]; exact e.symm)
    · exact h
    · exfalso
      have hle : ((kb : ℝ) + 1) ≤ ka := by exact_mod_cast h
      have hm : 2 * π * ((kb : ℝ) + 1 / 2) ∈ Set.Icc (θ b - ψ b) (θ a - ψ a) := by
        rw [ea, eb]; constructor <;> nlinarith
      obtain ⟨t, ht, e⟩ := intermediate_value_Icc' hab hd hm
      obtain ⟨k, ek⟩ := hk t ht
      exact half k kb (by rw [← ek]; exact e.symm)
  rw [this] at ea
  linarith

/-- A curve that stays on one side of a line through the point turns by less than half a turn. -/
theorem halfplane_angle (ux uy : ℝ) (x y : ℝ → ℝ) (hx : ContinuousOn x (Set.Icc 0 1))
    (hy : ContinuousOn y (Set.Icc 0 1)) (hpos : ∀ t ∈ Set.Icc (0 : ℝ) 1, 0 < ux * x t + uy * y t) :
    ∃ θ : ℝ → ℝ, ContinuousOn θ (Set.Icc 0 1) ∧ (∀ t ∈ Set.Icc (0 : ℝ) 1, Dir (θ t) (x t) (y t)) ∧
      -π < θ 1 - θ 0 ∧ θ 1 - θ 0 < π := by
  have hu : ux ≠ 0 ∨ uy ≠ 0 := by
    by_contra h
    push Not at h
    have := hpos 0 (by simp)
    rw [h.1, h.2] at this
    linarith
  obtain ⟨α, ⟨ρ, hρ, e1, e2⟩, -, -⟩ := dir_exists hu
  obtain ⟨θ, h1, h2, h3⟩ := frame_angle (fun _ => α) x y (Set.Icc 0 1) continuousOn_const hx hy (by
    intro t ht
    have := hpos t ht
    rw [e1, e2] at this
    have h : 0 < ρ * (x t * cos α + y t * sin α) := by linarith
    exact pos_of_mul_pos_right h hρ.le)
  refine ⟨θ, h1, h2, ?_, ?_⟩
  · rw [h3 1, h3 0]
    have := neg_pi_div_two_lt_arctan ((y 1 * cos α - x 1 * sin α) / (x 1 * cos α + y 1 * sin α))
    have := arctan_lt_pi_div_two ((y 0 * cos α - x 0 * sin α) / (x 0 * cos α + y 0 * sin α))
    linarith
  · rw [h3 1, h3 0]
    have := neg_pi_div_two_lt_arctan ((y 0 * cos α - x 0 * sin α) / (x 0 * cos α + y 0 * sin α))
    have := arctan_lt_pi_div_two ((y 1 * cos α - x 1 * sin α) / (x 1 * cos α + y 1 * sin α))
    linarith

/-- a ray from inside a circle meets it once -/
theorem ray_once {cx cy r φ ψ θ : ℝ} (hr : 0 < r) (hin : cx ^ 2 + cy ^ 2 < r ^ 2)
    (h1 : Dir θ (cx + r * cos φ) (cy + r * sin φ)) (h2 : Dir θ (cx + r * cos ψ) (cy + r * sin ψ)) :
    ∃ k : ℤ, φ = ψ + 2 * π * k := by
  obtain ⟨a, ha, ax, ay⟩ := h1
  obtain ⟨b, hb, bx, by'⟩ := h2
  have e1 : (a * cos θ - cx) ^ 2 + (a * sin θ - cy) ^ 2 = r ^ 2 := by
    rw [← ax, ← ay]; linear_combination r ^ 2 * (sin_sq_add_cos_sq φ)
  have e2 : (b * cos θ - cx) ^ 2 + (b * sin θ - cy) ^ 2 = r ^ 2 := by
    rw [← bx, ← by']; linear_combination r ^ 2 * (sin_sq_add_cos_sq ψ)
  have q := sin_sq_add_cos_sq θ
  have f1 : a ^ 2 - 2 * a * (cx * cos θ + cy * sin θ) = r ^ 2 - cx ^ 2 - cy ^ 2 := by
    linear_combination e1 - a ^ 2 * q
  have f2 : b ^ 2 - 2 * b * (cx * cos θ + cy * sin θ) = r ^ 2 - cx ^ 2 - cy ^ 2 := by
    linear_combination e2 - b ^ 2 * q
  have hab : a = b := by
    have h : (a - b) * (a * b + (r ^ 2 - cx ^ 2 - cy ^ 2)) = 0 := by
      linear_combination b * f1 - a * f2
    rcases mul_eq_zero.mp h with h | h
    · linarith
    · have := mul_pos ha hb; linarith
  subst hab
  have hc : cos φ = cos ψ := by
    have : r * cos φ = r * cos ψ := by linarith
    exact mul_left_cancel₀ hr.ne' this
  have hs : sin φ = sin ψ := by
    have : r * sin φ = r * sin ψ := by linarith
    exact mul_left_cancel₀ hr.ne' this
  have := Real.Angle.cos_sin_inj hc hs
  rw [Real.Angle.angle_eq_iff_two_pi_dvd_sub] at this
  obtain ⟨k, hk⟩ := this
  exact ⟨k, by linarith⟩

/-- Seen from inside the circle a counter clockwise arc turns counter clockwise, by less than a full
turn. -/
theorem disk_angle (cx cy r φ₀ σ : ℝ) (hr : 0 < r) (hin : cx ^ 2 + cy ^ 2 < r ^ 2) (hσ : 0 < σ)
    (hσ' : σ < 2 * π) :
    ∃ θ : ℝ → ℝ, ContinuousOn θ (Set.Icc 0 1) ∧
      (∀ t ∈ Set.Icc (0 : ℝ) 1, Dir (θ t) (cx + r * cos (φ₀ + t * σ)) (cy + r * sin (φ₀ + t * σ))) ∧
      0 < θ 1 - θ 0 ∧ θ 1 - θ 0 < 2 * π := by
  have hg : ∀ φ, 0 < (cx + r * cos φ) * cos φ + (cy + r * sin φ) * sin φ := by
    intro φ
    have e : (cx + r * cos φ) * cos φ + (cy + r * sin φ) * sin φ = r + (cx * cos φ + cy * sin φ) := by
      linear_combination r * (sin_sq_add_cos_sq φ)
    have h : (cx * cos φ + cy * sin φ) ^ 2 ≤ cx ^ 2 + cy ^ 2 := by
      have := sq_nonneg (cx * sin φ - cy * cos φ)
      have e2 : (cx * cos φ + cy * sin φ) ^ 2 + (cx * sin φ - cy * cos φ) ^ 2 = cx ^ 2 + cy ^ 2 := by
        linear_combination (cx ^ 2 + cy ^ 2) * (sin_sq_add_cos_sq φ)
      linarith
    have := abs_lt_of_sq_lt_sq (lt_of_le_of_lt h hin) hr.le
    rw [abs_lt] at this
    rw [e]; linarith [this.1]
  obtain ⟨Θ, hc, hd, hf⟩ := frame_angle (fun φ => φ) (fun φ => cx + r * cos φ) (fun φ => cy + r * sin φ) Set.univ
    continuousOn_id (by fun_prop) (by fun_prop) (fun t _ => hg t)
  have hper : Θ (φ₀ + 2 * π) = Θ φ₀ + 2 * π := by
    rw [hf, hf]; simp only [cos_add_two_pi, sin_add_two_pi]; ring
  have hp := pi_pos
  have no : ∀ φ, φ₀ < φ → φ < φ₀ + 2 * π → ∀ k : ℤ, Θ φ ≠ Θ φ₀ + 2 * π * k := by
    intro φ h1 h2 k hk
    have d1 := hd φ trivial
    have d2 := dir_shift (hd φ₀ trivial) k
    rw [hk] at d1
    obtain ⟨m, em⟩ := ray_once hr hin d1 d2
    have b1 : 0 < 2 * π * (m : ℝ) := by linarith
    have b2 : 2 * π * (m : ℝ) < 2 * π * 1 := by linarith
    have b3 : (m : ℝ) < 1 := lt_of_mul_lt_mul_left b2 (by positivity)
    have b4 : (0 : ℝ) < m := pos_of_mul_pos_right b1 (by positivity)
    have c1 : m < 1 := by exact_mod_cast b3
    have c2 : 0 < m := by exact_mod_cast b4
    omega
  have hcu : Continuous Θ := continuousOn_univ.mp hc
  refine ⟨fun t => Θ (φ₀ + t * σ), (hcu.comp (by fun_prop)).continuousOn, fun t _ => hd _ trivial, ?_, ?_⟩
  · simp only [one_mul, zero_mul, add_zero]
    by_contra hn
    push Not at hn
    obtain ⟨φ, hφ, e⟩ := intermediate_value_Icc (a := φ₀ + σ) (b := φ₀ + 2 * π) (by linarith) hcu.continuousOn
      (show Θ φ₀ ∈ Set.Icc (Θ (φ₀ + σ)) (Θ (φ₀ + 2 * π)) by rw [hper]; constructor <;> linarith)
    rcases lt_or_eq_of_le hφ.2 with h | h
    · exact no φ (by linarith [hφ.1]) h 0 (by rw [e]; simp)
    · rw [h, hper] at e; linarith
  · simp only [one_mul, zero_mul, add_zero]
    by_contra hn
    push Not at hn
    obtain ⟨φ, hφ, e⟩ := intermediate_value_Icc (a := φ₀) (b := φ₀ + σ) (by linarith) hcu.continuousOn
      (show Θ φ₀ + 2 * π ∈ Set.Icc (Θ φ₀) (Θ (φ₀ + σ)) by constructor <;> linarith)
    rcases lt_or_eq_of_le hφ.1 with h | h
    · exact no φ h (by linarith [hφ.2]) 1 (by rw [e]; simp)
    · rw [← h] at e; linarith

theorem int_eq {w k : ℤ} (h1 : 2 * π * ((k : ℝ) - 1) < 2 * π * w) (h2 : 2 * π * (w : ℝ) < 2 * π * ((k : ℝ) + 1)) :
    w = k := by
  have hp : 0 ≤ 2 * π := by positivity
  have a1 := lt_of_mul_lt_mul_left h1 hp
  have a2 := lt_of_mul_lt_mul_left h2 hp
  have b1 : (k - 1 : ℤ) < w := by exact_mod_cast a1
  have b2 : w < (k + 1 : ℤ) := by exact_mod_cast a2
  omega

section Table
variable {a0 a1 Δ x0 y0 x1 y1 : ℝ} {w : ℤ}

/-- crossings of the positive axis when turning less than half a turn -/
theorem small_turn (d0 : Dir a0 x0 y0) (d1 : Dir a1 x1 y1) (h0 : 0 < a0) (h0' : a0 ≤ 2 * π) (h1 : 0 < a1)
    (h1' : a1 ≤ 2 * π) (hw : Δ = a1 - a0 + 2 * π * w) (hl : -π < Δ) (hu : Δ < π) :
    w = if y0 ≤ 0 then (if 0 < y1 ∧ 0 < x0 * y1 - x1 * y0 then 1 else 0)
      else if y1 ≤ 0 ∧ ¬ 0 < x0 * y1 - x1 * y0 then -1 else 0 := by
  have hp := pi_pos
  have s0 := dir_y_pos d0 h0 h0'
  have s1 := dir_y_pos d1 h1 h1'
  obtain ⟨k, hk, hcr, -⟩ := dir_cross d0 d1
  have hsin : sin (a1 - a0) = sin Δ := by
    rw [hw, show a1 - a0 + 2 * π * w = a1 - a0 + w * (2 * π) by ring, sin_add_int_mul_two_pi]
  rw [hsin] at hcr
  have hiff : 0 < x0 * y1 - x1 * y0 ↔ 0 < Δ := by
    rw [hcr]
    constructor
    · intro h
      by_contra hn
      push Not at hn
      have := sin_nonpos_of_nonpos_of_neg_pi_le hn hl.le
      have := mul_nonpos_of_nonneg_of_nonpos hk.le this
      linarith
    · intro h; exact mul_pos hk (sin_pos_of_pos_of_lt_pi h hu)
  simp only [hiff]
  by_cases hy0 : y0 ≤ 0
  · have g0 : π ≤ a0 := by by_contra h; push Not at h; exact absurd (s0.mpr h) (by linarith)
    rw [if_pos hy0]
    by_cases hy1 : 0 < y1
    · have g1 := s1.mp hy1
      by_cases hD : 0 < Δ
      · rw [if_pos ⟨hy1, hD⟩]; apply int_eq <;> push_cast <;> linarith
      · rw [if_neg (by tauto)]; push Not at hD; apply int_eq <;> push_cast <;> linarith
    · rw [if_neg (by tauto)]
      have g1 : π ≤ a1 := by by_contra h; push Not at h; exact absurd (s1.mpr h) (by linarith)
      apply int_eq <;> push_cast <;> linarith
  · push Not at hy0
    have g0 := s0.mp hy0
    rw [if_neg (by linarith)]
    by_cases hy1 : y1 ≤ 0
    · have g1 : π ≤ a1 := by by_contra h; push Not at h; exact absurd (s1.mpr h) (by linarith)
      by_cases hD : 0 < Δ
      · rw [if_neg (by tauto)]; apply int_eq <;> push_cast <;> linarith
      · rw [if_pos ⟨hy1, hD⟩]; push Not at hD; apply int_eq <;> push_cast <;> linarith
    · rw [if_neg (by tauto)]
      push Not at hy1
      have g1 := s1.mp hy1
      apply int_eq <;> push_cast <;> linarith

/-- crossings of the positive axis when turning at least half a turn, but no full turn -/
theorem big_turn (d0 : Dir a0 x0 y0) (d1 : Dir a1 x1 y1) (h0 : 0 < a0) (h0' : a0 ≤ 2 * π) (h1 : 0 < a1)
    (h1' : a1 ≤ 2 * π) (hw : Δ = a1 - a0 + 2 * π * w) (hl : π ≤ Δ) (hu : Δ < 2 * π)
    (hdot : x0 * x1 + y0 * y1 < 0) :
    w = if y0 ≤ 0 then (if 0 < y1 then 1 else if x1 < 0 ∧ 0 < x0 then 1 else 0)
      else if y1 ≤ 0 then 0 else if x0 < 0 ∧ 0 < x1 then 1 else 0 := by
  have hp := pi_pos
  have s0 := dir_y_pos d0 h0 h0'
  have s1 := dir_y_pos d1 h1 h1'
  obtain ⟨k, hk, hcr, -⟩ := dir_cross d0 d1
  have hsin : sin (a1 - a0) = sin Δ := by
    rw [hw, show a1 - a0 + 2 * π * w = a1 - a0 + w * (2 * π) by ring, sin_add_int_mul_two_pi]
  rw [hsin] at hcr
  have hcross : x0 * y1 - x1 * y0 ≤ 0 := by
    rw [hcr]
    have := sin_nonneg_of_nonneg_of_le_pi (x := Δ - π) (by linarith) (by linarith)
    rw [sin_sub_pi] at this
    exact mul_nonpos_of_nonneg_of_nonpos hk.le (by linarith)
  by_cases hy0 : y0 ≤ 0
  · have g0 : π ≤ a0 := by by_contra h; push Not at h; exact absurd (s0.mpr h) (by linarith)
    rw [if_pos hy0]
    by_cases hy1 : 0 < y1
    · have g1 := s1.mp hy1
      rw [if_pos hy1]; apply int_eq <;> push_cast <;> linarith
    · rw [if_neg hy1]
      push Not at hy1
      have g1 : π ≤ a1 := by by_contra h; push Not at h; exact absurd (s1.mpr h) (by linarith)
      have hx : x0 * x1 < 0 := by nlinarith [mul_nonneg_of_nonpos_of_nonpos hy0 hy1]
      by_cases hx1 : x1 < 0 ∧ 0 < x0
      · rw [if_pos hx1]
        have hne : a1 ≠ 2 * π := by
          intro e
          obtain ⟨ρ, hρ, e1, -⟩ := d1
          rw [e, cos_two_pi] at e1
          linarith [hx1.1]
        have : a1 < 2 * π := lt_of_le_of_ne h1' hne
        apply int_eq <;> push_cast <;> linarith
      · rw [if_neg hx1]
        have hx' : x0 < 0 ∧ 0 < x1 := by
          rcases lt_trichotomy x0 0 with h | h | h
          · exact ⟨h, by by_contra hn; push Not at hn; nlinarith⟩
          · rw [h] at hx; simp at hx
          · exact absurd ⟨by by_contra hn; push Not at hn; nlinarith, h⟩ hx1
        have e1 : 0 ≤ x0 * y1 := mul_nonneg_of_nonpos_of_nonpos hx'.1.le hy1
        have e2 : x1 * y0 ≤ 0 := mul_nonpos_of_nonneg_of_nonpos hx'.2.le hy0
        have z0 : y0 = 0 := by
          have : x1 * y0 = 0 := by linarith
          rcases mul_eq_zero.mp this with h | h
          · linarith [hx'.2]
          · exact h
        obtain ⟨ρ, hρ, f1, f2⟩ := d0
        have ha0 : a0 = π := by
          by_contra hne
          have hgt : π < a0 := lt_of_le_of_ne g0 (Ne.symm hne)
          have hlt : a0 < 2 * π := by
            refine lt_of_le_of_ne h0' ?_
            intro e
            rw [e, cos_two_pi] at f1
            linarith [hx'.1]
          have := sin_pos_of_pos_of_lt_pi (x := a0 - π) (by linarith) (by linarith)
          rw [sin_sub_pi] at this
          have : ρ * sin a0 < 0 := mul_neg_of_pos_of_neg hρ (by linarith)
          linarith
        apply int_eq <;> push_cast <;> linarith
  · push Not at hy0
    have g0 := s0.mp hy0
    rw [if_neg (by linarith)]
    by_cases hy1 : y1 ≤ 0
    · have g1 : π ≤ a1 := by by_contra h; push Not at h; exact absurd (s1.mpr h) (by linarith)
      rw [if_pos hy1]; apply int_eq <;> push_cast <;> linarith
    · rw [if_neg hy1]
      push Not at hy1
      have g1 := s1.mp hy1
      have hx : x0 * x1 < 0 := by nlinarith [mul_pos hy0 hy1]
      have hx' : x0 < 0 ∧ 0 < x1 := by
        rcases lt_trichotomy x0 0 with h | h | h
        · exact ⟨h, by by_contra hn; push Not at hn; nlinarith⟩
        · rw [h] at hx; simp at hx
        · have hx1 : x1 < 0 := by by_contra hn; push Not at hn; nlinarith
          have := mul_pos h hy1
          have := mul_neg_of_neg_of_pos hx1 hy0
          linarith
      rw [if_pos hx']
      apply int_eq <;> push_cast <;> linarith

end Table

end Cavc
