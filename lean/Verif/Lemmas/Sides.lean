import Mathlib.Analysis.Calculus.DerivativeTest
import Verif.Lemmas.Jump

/-! # The winding number on the two sides of a segment -/

set_option linter.unusedVariables false

namespace Cavc
open Real Pline Filter Topology

open Classical in
/-- Positive on the left of a segment (of the line, or of the circle seen along the arc), negative on the right. -/
noncomputable def sideOf (s : Vertex ℝ × Vertex ℝ) (z : ℝ × ℝ) : ℝ :=
  if IsLine s.1 then (s.2.x - s.1.x) * (z.2 - s.1.y) - (s.2.y - s.1.y) * (z.1 - s.1.x)
  else 2 * arctan s.1.bulge * (arcRadius s.1.pos s.2.pos s.1.bulge ^ 2 -
    ((z.1 - (arcCenter s.1.pos s.2.pos s.1.bulge).x) ^ 2 + (z.2 - (arcCenter s.1.pos s.2.pos s.1.bulge).y) ^ 2))

theorem sideOf_curve {s : Vertex ℝ × Vertex ℝ} (h : Proper s) (t : ℝ) : sideOf s ((segCurve s.1 s.2 t).x, (segCurve s.1 s.2 t).y) = 0 := by
  unfold sideOf
  by_cases hl : IsLine s.1
  · rw [if_pos hl, segCurve_line hl]
    simp only [linePoint, Vertex.pos]
    ring
  · rw [if_neg hl, segCurve_arc hl, arcPoint_dist_sq _ _ _ _ (bulge_ne_zero hl), sub_self, mul_zero]

theorem sideOf_trace {s : Vertex ℝ × Vertex ℝ} (h : Proper s) {z : ℝ × ℝ} (hz : sideOf s z ≠ 0) : z ∉ segTrace s := by
  rintro ⟨t, -, -, e⟩
  apply hz
  have := sideOf_curve h t
  rw [← e] at this
  exact this

/-- The direction of a segment at a point: the rate of change of `sideOf` along any path through the point, and where the ends are. -/
theorem seg_tangent {s : Vertex ℝ × Vertex ℝ} (h : Proper s) (hne : s.1.pos ≠ s.2.pos) (t : ℝ) : ∃ a b : ℝ, (a ≠ 0 ∨ b ≠ 0) ∧
    HasDerivAt (fun t => (segCurve s.1 s.2 t).x) a t ∧ HasDerivAt (fun t => (segCurve s.1 s.2 t).y) b t ∧
    (∀ (X Y : ℝ → ℝ) (c e τ : ℝ), HasDerivAt X c τ → HasDerivAt Y e τ → X τ = (segCurve s.1 s.2 t).x → Y τ = (segCurve s.1 s.2 t).y →
      HasDerivAt (fun u => sideOf s (X u, Y u)) (a * e - b * c) τ) ∧
    (0 < t → t < 1 → 0 < a * ((segCurve s.1 s.2 t).x - s.1.x) + b * ((segCurve s.1 s.2 t).y - s.1.y)) ∧
    (0 < t → t < 1 → a * ((segCurve s.1 s.2 t).x - s.2.x) + b * ((segCurve s.1 s.2 t).y - s.2.y) < 0) := by
  by_cases hl : IsLine s.1
  · have hf : segCurve s.1 s.2 = linePoint s.1.pos s.2.pos := funext (segCurve_line hl)
    rw [hf]
    obtain ⟨d1, d2⟩ := line_deriv s.1.pos s.2.pos t
    have hd : s.2.x - s.1.x ≠ 0 ∨ s.2.y - s.1.y ≠ 0 := by
      by_contra hc
      push Not at hc
      apply hne
      rw [V2.ext_iff']
      simp only [Vertex.pos]
      exact ⟨by linarith [hc.1], by linarith [hc.2]⟩
    have hsq : 0 < (s.2.x - s.1.x) ^ 2 + (s.2.y - s.1.y) ^ 2 := by
      rcases hd with h | h
      · have := sq_pos_of_ne_zero h; positivity
      · have := sq_pos_of_ne_zero h; positivity
    refine ⟨s.2.x - s.1.x, s.2.y - s.1.y, hd, d1, d2, ?_, ?_, ?_⟩
    · intro X Y c e τ hX hY _ _
      unfold sideOf
      simp only [if_pos hl]
      exact ((hY.sub_const s.1.y).const_mul (s.2.x - s.1.x)).sub ((hX.sub_const s.1.x).const_mul (s.2.y - s.1.y))
    · intro t0 t1
      simp only [linePoint, Vertex.pos]
      nlinarith [mul_pos t0 hsq]
    · intro t0 t1
      simp only [linePoint, Vertex.pos]
      nlinarith [mul_pos (sub_pos.mpr t1) hsq]
  · have ha : ProperArc s.1 s.2 := h.resolve_left hl
    have hb0 := bulge_ne_zero hl
    have ht0 : arctan s.1.bulge ≠ 0 := by rwa [Ne, arctan_eq_zero_iff]
    have hf : segCurve s.1 s.2 = arcPoint s.1.pos s.2.pos s.1.bulge := funext (segCurve_arc hl)
    rw [hf]
    obtain ⟨d1, d2⟩ := arc_deriv s.1.pos s.2.pos s.1.bulge t
    have hR := arcPoint_dist_sq s.1.pos s.2.pos s.1.bulge t hb0
    have hr : 0 < arcRadius s.1.pos s.2.pos s.1.bulge := arcRadius_pos ha.ne hb0
    have e0 := arc_from s.1.pos s.2.pos s.1.bulge t 0
    have e1 := arc_from s.1.pos s.2.pos s.1.bulge t 1
    have p0 : arcPoint s.1.pos s.2.pos s.1.bulge 0 = s.1.pos := by rw [← segCurve_arc hl, (segCurve_ends _ _).1]
    have p1 : arcPoint s.1.pos s.2.pos s.1.bulge 1 = s.2.pos := by rw [← segCurve_arc hl, (segCurve_ends _ _).2]
    rw [p0] at e0
    rw [p1] at e1
    simp only [Vertex.pos_x, Vertex.pos_y] at e0 e1
    have hπ : |4 * arctan s.1.bulge| ≤ π := by
      obtain ⟨h1, h2⟩ := abs_le.mp ha.half
      have a1 : arctan s.1.bulge ≤ π / 4 := by rw [← arctan_one]; exact arctan_strictMono.monotone h2
      have a2 : -(π / 4) ≤ arctan s.1.bulge := by rw [← arctan_one, ← arctan_neg]; exact arctan_strictMono.monotone h1
      rw [abs_le]; constructor <;> linarith
    set θ := 4 * arctan s.1.bulge with hθ
    have hθ0 : θ ≠ 0 := by rw [hθ]; exact mul_ne_zero (by norm_num) ht0
    set K := arcCenter s.1.pos s.2.pos s.1.bulge
    set Z := arcPoint s.1.pos s.2.pos s.1.bulge t
    have hsin : ∀ x, 0 < x → x < 1 → 0 < θ * sin (x * θ) := by
      intro x x0 x1
      obtain ⟨g1, g2⟩ := abs_le.mp hπ
      rcases lt_or_gt_of_ne hθ0 with hn | hp
      · have : sin (x * θ) < 0 := sin_neg_of_neg_of_neg_pi_lt (by nlinarith) (by nlinarith)
        exact mul_pos_of_neg_of_neg hn this
      · have : 0 < sin (x * θ) := sin_pos_of_pos_of_lt_pi (by positivity) (by nlinarith)
        positivity
    refine ⟨-θ * (Z.y - K.y), θ * (Z.x - K.x), ?_, d1, d2, ?_, ?_, ?_⟩
    · by_contra hc
      push Not at hc
      obtain ⟨c1, c2⟩ := hc
      have z1 : Z.y - K.y = 0 := by rcases mul_eq_zero.mp c1 with h | h; exact absurd (by linarith) hθ0; exact h
      have z2 : Z.x - K.x = 0 := by rcases mul_eq_zero.mp c2 with h | h; exact absurd h hθ0; exact h
      rw [z1, z2] at hR
      have := sq_pos_of_pos hr
      linarith
    · intro X Y c e τ hX hY eX eY
      unfold sideOf
      simp only [if_neg hl]
      refine (((((hX.sub_const K.x).pow 2).add ((hY.sub_const K.y).pow 2)).const_sub _).const_mul _).congr_deriv ?_
      simp only [eX, eY]
      rw [hθ]
      push_cast
      ring
    · intro t0 t1
      have := hsin t t0 t1
      have hs : sin ((0 - t) * θ) = -sin (t * θ) := by rw [← sin_neg]; congr 1; ring
      rw [e0.1, e0.2, hs]
      have : 0 < θ * sin (t * θ) * arcRadius s.1.pos s.2.pos s.1.bulge ^ 2 := by positivity
      rw [← hR] at this
      linarith
    · intro t0 t1
      have := hsin (1 - t) (by linarith) (by linarith)
      rw [e1.1, e1.2]
      have : 0 < θ * sin ((1 - t) * θ) * arcRadius s.1.pos s.2.pos s.1.bulge ^ 2 := by positivity
      rw [← hR] at this
      linarith

set_option maxHeartbeats 1000000 in
open Classical in
/-- Near a point where an arc leads straight upwards. -/
theorem side_up_arc (s : Vertex ℝ × Vertex ℝ) (h : ProperArc s.1 s.2) {t₀ : ℝ} (h0 : 0 < t₀) (h1 : t₀ < 1)
    (hy : (segCurve s.1 s.2 t₀).y = (arcCenter s.1.pos s.2.pos s.1.bulge).y)
    (hx : 0 < s.1.bulge * ((segCurve s.1 s.2 t₀).x - (arcCenter s.1.pos s.2.pos s.1.bulge).x)) :
    s.1.y ≠ (segCurve s.1 s.2 t₀).y ∧ s.2.y ≠ (segCurve s.1 s.2 t₀).y ∧
    ∀ᶠ z in 𝓝 ((segCurve s.1 s.2 t₀).x, (segCurve s.1 s.2 t₀).y), sideOf s z ≠ 0 → segW z s = if 0 < sideOf s z then 1 else 0 := by
  obtain ⟨v1, v2⟩ := s
  dsimp only at *
  have hb0 := bulge_ne_zero h.notLine
  have hr := arcRadius_pos h.ne hb0
  have harc := segCurve_arc (v2 := v2) h.notLine
  have hside : ∀ z : ℝ × ℝ, sideOf (v1, v2) z = 2 * arctan v1.bulge * (arcRadius v1.pos v2.pos v1.bulge ^ 2 -
      ((z.1 - (arcCenter v1.pos v2.pos v1.bulge).x) ^ 2 + (z.2 - (arcCenter v1.pos v2.pos v1.bulge).y) ^ 2)) := by
    intro z
    unfold sideOf
    rw [if_neg h.notLine]
  set b := v1.bulge with hb
  set c := arcCenter v1.pos v2.pos b with hc
  set r := arcRadius v1.pos v2.pos b with hrd
  set Z := segCurve v1 v2 t₀ with hZ
  set θ := 4 * arctan b with hθ
  have hθπ : |θ| ≤ π := abs_four_arctan_le h.half
  have hdist : (Z.x - c.x) ^ 2 = r ^ 2 := by
    have := arcPoint_dist_sq v1.pos v2.pos b t₀ hb0
    rw [← harc, ← hc, ← hrd, ← hZ, hy] at this
    linarith
  have e1 := arc_from v1.pos v2.pos b t₀ 0
  have e2 := arc_from v1.pos v2.pos b t₀ 1
  rw [← harc, ← harc, ← hZ, ← hc, hy, (segCurve_ends v1 v2).1] at e1
  rw [← harc, ← harc, ← hZ, ← hc, hy, (segCurve_ends v1 v2).2] at e2
  simp only [sub_self, zero_mul, sub_zero, add_zero, Vertex.pos_x, Vertex.pos_y] at e1 e2
  rw [← hθ] at e1 e2
  rcases lt_or_gt_of_ne hb0 with hneg | hpos
  · -- clockwise
    have hX : Z.x - c.x = -r := by
      have : Z.x - c.x < 0 := by
        by_contra hn; push Not at hn
        nlinarith
      nlinarith
    have hat : arctan b < 0 := arctan_lt_zero.mpr hneg
    have hθ0 : θ < 0 := by rw [hθ]; linarith
    set A := -(t₀ * θ) with hA
    set B := -((1 - t₀) * θ) with hB
    have hA0 : 0 < A := by nlinarith
    have hB0 : 0 < B := by nlinarith
    have hAB : A + B ≤ π := by
      have := (abs_le.mp hθπ).1
      rw [hA, hB]; linarith
    have sA := sin_pos_of_pos_of_lt_pi hA0 (by linarith)
    have sB := sin_pos_of_pos_of_lt_pi hB0 (by linarith)
    have a1 : (0 - t₀) * θ = A := by rw [hA]; ring
    have b1 : (1 - t₀) * θ = -B := by rw [hB]; ring
    rw [a1, hX] at e1
    rw [b1, hX, cos_neg, sin_neg] at e2
    have q1 : v1.y < Z.y := by rw [e1.2, hy]; nlinarith
    have q2 : Z.y < v2.y := by rw [e2.2, hy]; nlinarith
    refine ⟨q1.ne, q2.ne', ?_⟩
    have l1 : ∀ᶠ z : ℝ × ℝ in 𝓝 (Z.x, Z.y), v1.y < z.2 := continuousAt_snd.eventually_const_lt q1
    have l2 : ∀ᶠ z : ℝ × ℝ in 𝓝 (Z.x, Z.y), z.2 < v2.y := continuousAt_snd.eventually_lt_const q2
    have hcr : (v2.x - Z.x) * (v1.y - Z.y) - (v1.x - Z.x) * (v2.y - Z.y) < 0 := by
      have hz : Z.x = c.x - r := by linarith
      rw [e1.1, e1.2, e2.1, e2.2, hz, hy]
      have cA : cos A < 1 := by
        have := cos_lt_cos_of_nonneg_of_le_pi (le_refl 0) (by linarith : A ≤ π) hA0
        rwa [cos_zero] at this
      have cB := cos_le_one B
      have : (c.x + -r * cos B - (c.x - r)) * (c.y + -r * sin A - c.y) - (c.x + -r * cos A - (c.x - r)) * (c.y + -r * -sin B - c.y)
          = -(r ^ 2 * (1 - cos B) * sin A) - r ^ 2 * (1 - cos A) * sin B := by ring
      rw [this]
      have m1 : 0 ≤ r ^ 2 * (1 - cos B) * sin A := mul_nonneg (mul_nonneg (sq_nonneg r) (by linarith)) sA.le
      have m2 : 0 < r ^ 2 * (1 - cos A) * sin B := mul_pos (mul_pos (by positivity) (by linarith)) sB
      linarith
    have l3 : ∀ᶠ z : ℝ × ℝ in 𝓝 (Z.x, Z.y), (v2.x - z.1) * (v1.y - z.2) - (v1.x - z.1) * (v2.y - z.2) < 0 := by
      have hcont : ContinuousAt (fun z : ℝ × ℝ => (v2.x - z.1) * (v1.y - z.2) - (v1.x - z.1) * (v2.y - z.2)) (Z.x, Z.y) := by fun_prop
      exact hcont.eventually_lt_const hcr
    filter_upwards [l1, l2, l3] with z g1 g2 g3 hs
    unfold segW segWinding
    rw [if_neg (by rw [bulgeIsZero_false h.notLine]; simp), arcWinding_cw v1 v2 hneg h.ne, arcCenter_swap _ _ _ hb0, arcRadius_swap]
    dsimp only
    unfold ccwTable
    rw [if_neg (by push Not; linarith), if_pos (by linarith), if_pos (by push Not; linarith)]
    rw [hside] at hs ⊢
    have e3 : (c.x - z.1) ^ 2 + (c.y - z.2) ^ 2 = (z.1 - c.x) ^ 2 + (z.2 - c.y) ^ 2 := by ring
    rw [e3]
    by_cases hin : (z.1 - c.x) ^ 2 + (z.2 - c.y) ^ 2 < r ^ 2
    · rw [if_neg (not_not.mpr hin), if_neg (by push Not; nlinarith)]; rfl
    · have : 0 < 2 * arctan b * (r ^ 2 - ((z.1 - c.x) ^ 2 + (z.2 - c.y) ^ 2)) := lt_of_le_of_ne (by nlinarith) (Ne.symm hs)
      rw [if_pos hin, if_pos this]; rfl
  · -- counter clockwise
    have hX : Z.x - c.x = r := by
      have : 0 < Z.x - c.x := by
        by_contra hn; push Not at hn
        nlinarith
      nlinarith
    have hat : 0 < arctan b := arctan_pos.mpr hpos
    have hθ0 : 0 < θ := by rw [hθ]; linarith
    set A := t₀ * θ with hA
    set B := (1 - t₀) * θ with hB
    have hA0 : 0 < A := by positivity
    have hB0 : 0 < B := mul_pos (by linarith) hθ0
    have hAB : A + B ≤ π := by
      have := (abs_le.mp hθπ).2
      rw [hA, hB]; linarith
    have sA := sin_pos_of_pos_of_lt_pi hA0 (by linarith)
    have sB := sin_pos_of_pos_of_lt_pi hB0 (by linarith)
    have a1 : (0 - t₀) * θ = -A := by rw [hA]; ring
    rw [a1, hX, cos_neg, sin_neg] at e1
    rw [hX] at e2
    have q1 : v1.y < Z.y := by rw [e1.2, hy]; nlinarith
    have q2 : Z.y < v2.y := by rw [e2.2, hy]; nlinarith
    refine ⟨q1.ne, q2.ne', ?_⟩
    have l1 : ∀ᶠ z : ℝ × ℝ in 𝓝 (Z.x, Z.y), v1.y < z.2 := continuousAt_snd.eventually_const_lt q1
    have l2 : ∀ᶠ z : ℝ × ℝ in 𝓝 (Z.x, Z.y), z.2 < v2.y := continuousAt_snd.eventually_lt_const q2
    have hcr : (v1.x - Z.x) * (v2.y - Z.y) - (v2.x - Z.x) * (v1.y - Z.y) < 0 := by
      have hz : Z.x = c.x + r := by linarith
      rw [e1.1, e1.2, e2.1, e2.2, hz, hy]
      have cA : cos A < 1 := by
        have := cos_lt_cos_of_nonneg_of_le_pi (le_refl 0) (by linarith : A ≤ π) hA0
        rwa [cos_zero] at this
      have cB := cos_le_one B
      have : (c.x + r * cos A - (c.x + r)) * (c.y + r * sin B - c.y) - (c.x + r * cos B - (c.x + r)) * (c.y + r * -sin A - c.y)
          = -(r ^ 2 * (1 - cos B) * sin A) - r ^ 2 * (1 - cos A) * sin B := by ring
      rw [this]
      have m1 : 0 ≤ r ^ 2 * (1 - cos B) * sin A := mul_nonneg (mul_nonneg (sq_nonneg r) (by linarith)) sA.le
      have m2 : 0 < r ^ 2 * (1 - cos A) * sin B := mul_pos (mul_pos (by positivity) (by linarith)) sB
      linarith
    have l3 : ∀ᶠ z : ℝ × ℝ in 𝓝 (Z.x, Z.y), (v1.x - z.1) * (v2.y - z.2) - (v2.x - z.1) * (v1.y - z.2) < 0 := by
      have hcont : ContinuousAt (fun z : ℝ × ℝ => (v1.x - z.1) * (v2.y - z.2) - (v2.x - z.1) * (v1.y - z.2)) (Z.x, Z.y) := by fun_prop
      exact hcont.eventually_lt_const hcr
    filter_upwards [l1, l2, l3] with z g1 g2 g3 hs
    unfold segW segWinding
    rw [if_neg (by rw [bulgeIsZero_false h.notLine]; simp), arcWinding_ccw v1 v2 hpos h.ne]
    dsimp only
    unfold ccwTable
    rw [if_pos (by linarith), if_pos (by linarith), if_neg (by push Not; linarith)]
    rw [hside] at hs ⊢
    have e3 : (c.x - z.1) ^ 2 + (c.y - z.2) ^ 2 = (z.1 - c.x) ^ 2 + (z.2 - c.y) ^ 2 := by ring
    rw [e3]
    by_cases hin : (z.1 - c.x) ^ 2 + (z.2 - c.y) ^ 2 < r ^ 2
    · have : 0 < 2 * arctan b * (r ^ 2 - ((z.1 - c.x) ^ 2 + (z.2 - c.y) ^ 2)) := mul_pos (by linarith) (by linarith)
      rw [if_pos hin, if_pos this]
    · rw [if_neg hin, if_neg (by push Not; nlinarith)]

open Classical in
/-- Near a point where a segment leads straight upwards, what it adds is 1 on its left and 0 on its right. -/
theorem side_up {s : Vertex ℝ × Vertex ℝ} (h : Proper s) {t₀ ρ : ℝ} (h0 : 0 < t₀) (h1 : t₀ < 1) (hρ : 0 < ρ)
    (hx : HasDerivAt (fun t => (segCurve s.1 s.2 t).x) 0 t₀) (hy : HasDerivAt (fun t => (segCurve s.1 s.2 t).y) ρ t₀) :
    s.1.y ≠ (segCurve s.1 s.2 t₀).y ∧ s.2.y ≠ (segCurve s.1 s.2 t₀).y ∧
    ∀ᶠ z in 𝓝 ((segCurve s.1 s.2 t₀).x, (segCurve s.1 s.2 t₀).y), sideOf s z ≠ 0 → segW z s = if 0 < sideOf s z then 1 else 0 := by
  rcases h with hl | ha
  · have hf : segCurve s.1 s.2 = linePoint s.1.pos s.2.pos := funext (segCurve_line hl)
    rw [hf] at hx hy ⊢
    obtain ⟨d1, d2⟩ := line_deriv s.1.pos s.2.pos t₀
    have e1 := hx.unique d1
    have e2 := hy.unique d2
    simp only [Vertex.pos_x, Vertex.pos_y] at e1 e2
    have hX : (linePoint s.1.pos s.2.pos t₀).x = s.1.x := by simp only [linePoint, Vertex.pos_x]; rw [← e1]; ring
    have hY : (linePoint s.1.pos s.2.pos t₀).y = s.1.y + t₀ * ρ := by simp only [linePoint, Vertex.pos_y]; rw [← e2]
    rw [hX, hY]
    have q1 : s.1.y < s.1.y + t₀ * ρ := by nlinarith
    have q2 : s.1.y + t₀ * ρ < s.2.y := by nlinarith
    refine ⟨q1.ne, q2.ne', ?_⟩
    have l1 : ∀ᶠ z : ℝ × ℝ in 𝓝 (s.1.x, s.1.y + t₀ * ρ), s.1.y < z.2 := continuousAt_snd.eventually_const_lt q1
    have l2 : ∀ᶠ z : ℝ × ℝ in 𝓝 (s.1.x, s.1.y + t₀ * ρ), z.2 < s.2.y := continuousAt_snd.eventually_lt_const q2
    filter_upwards [l1, l2] with z g1 g2 hs
    obtain ⟨a, b, -⟩ := segW_up_line s hl (x0 := s.1.x) (y0 := z.2) rfl (by linarith) g1 g2
    have hside : sideOf s z = ρ * (s.1.x - z.1) := by
      unfold sideOf
      rw [if_pos hl, ← e1, ← e2]; ring
    rw [hside] at hs ⊢
    rcases lt_trichotomy z.1 s.1.x with g | g | g
    · rw [a z.1 g, if_pos (mul_pos hρ (by linarith))]
    · rw [g] at hs; simp at hs
    · rw [b z.1 g, if_neg (by push Not; nlinarith)]
  · have hf : segCurve s.1 s.2 = arcPoint s.1.pos s.2.pos s.1.bulge := funext (segCurve_arc ha.notLine)
    rw [hf] at hx hy
    obtain ⟨d1, d2⟩ := arc_deriv s.1.pos s.2.pos s.1.bulge t₀
    have e1 := hx.unique d1
    have e2 := hy.unique d2
    rw [← hf] at e1 e2
    have hb0 := bulge_ne_zero ha.notLine
    have ht0 : arctan s.1.bulge ≠ 0 := by rwa [Ne, arctan_eq_zero_iff]
    refine side_up_arc s ha h0 h1 ?_ ?_
    · have := mul_eq_zero.mp e1.symm
      rcases this with h | h
      · exact absurd (by linarith) ht0
      · linarith
    · have hpos : 0 < arctan s.1.bulge * ((segCurve s.1 s.2 t₀).x - (arcCenter s.1.pos s.2.pos s.1.bulge).x) := by nlinarith
      rcases lt_or_gt_of_ne hb0 with hn | hp
      · have := arctan_lt_zero.mpr hn
        have : (segCurve s.1 s.2 t₀).x - (arcCenter s.1.pos s.2.pos s.1.bulge).x < 0 := by
          by_contra hc; push Not at hc; nlinarith
        exact mul_pos_of_neg_of_neg hn this
      · have := arctan_pos.mpr hp
        have : 0 < (segCurve s.1 s.2 t₀).x - (arcCenter s.1.pos s.2.pos s.1.bulge).x := by
          by_contra hc; push Not at hc; nlinarith
        exact mul_pos hp this

/-- What the segments add that are off a point does not change near it, if the segments through it do not end on its ray. -/
theorem others_const {L1 L2 : List (Vertex ℝ × Vertex ℝ)} {s : Vertex ℝ × Vertex ℝ} (h : ∀ e ∈ L1 ++ L2, Proper e)
    (hc : ((L1 ++ s :: L2).map fun s => s.2.pos).Perm ((L1 ++ s :: L2).map fun s => s.1.pos)) {Z : ℝ × ℝ} (hy1 : s.1.y ≠ Z.2) (hy2 : s.2.y ≠ Z.2)
    (hoff : ∀ e ∈ L1 ++ L2, Z ∉ segTrace e) :
    ∀ᶠ z in 𝓝 Z, (∀ e ∈ L1 ++ L2, z ∉ segTrace e) ∧ ((L1 ++ L2).map (segW z)).sum = ((L1 ++ L2).map (segW Z)).sum := by
  obtain ⟨δ, hδ, hk⟩ := list_radius (fun (e : Vertex ℝ × Vertex ℝ) δ => ∀ w ∈ Metric.ball Z δ, w ∉ segTrace e ∧
      segW w e = segW Z e + if w.2 < Z.2 then onRay Z e.2.pos - onRay Z e.1.pos else 0)
    (fun a δ δ' hle h w hw => h w (Metric.ball_subset_ball hle hw)) (L1 ++ L2) (fun e he => segW_change e (h e he) (hoff e he))
  have hr : ∀ v : Vertex ℝ, v.y ≠ Z.2 → onRay Z v.pos = 0 := by
    intro v hv
    unfold onRay
    rw [if_neg (fun h => hv h.1)]
  have hz : ((L1 ++ L2).map fun e => onRay Z e.2.pos).sum = ((L1 ++ L2).map fun e => onRay Z e.1.pos).sum := by
    have := (hc.map (onRay Z)).sum_eq
    simp only [List.map_map, List.map_append, List.map_cons, List.sum_append, List.sum_cons, Function.comp_def] at this ⊢
    rw [hr _ hy1, hr _ hy2] at this
    linarith
  filter_upwards [Metric.ball_mem_nhds Z hδ] with z hzb
  refine ⟨fun e he => (hk e he z hzb).1, ?_⟩
  rw [sum_congr_list (L := L1 ++ L2) (fun e he => (hk e he z hzb).2)]
  by_cases hlt : z.2 < Z.2
  · simp only [if_pos hlt]
    have : ∀ (L : List (Vertex ℝ × Vertex ℝ)) (f g k : Vertex ℝ × Vertex ℝ → ℤ), (L.map fun e => f e + (g e - k e)).sum = (L.map f).sum + ((L.map g).sum - (L.map k).sum) := by
      intro L f g k
      induction L with
      | nil => simp
      | cons a L ih => simp only [List.map_cons, List.sum_cons, ih]; ring
    rw [this, hz, sub_self, add_zero]
  · simp only [if_neg hlt, add_zero]

theorem sideOf_rot (φ : ℝ) {s : Vertex ℝ × Vertex ℝ} (h : Proper s) (z : ℝ × ℝ) : sideOf (rotSeg φ s) (rotZ φ z) = sideOf s z := by
  have hsq := sin_sq_add_cos_sq φ
  unfold sideOf
  by_cases hl : IsLine s.1
  · rw [if_pos hl, if_pos (show IsLine (rotSeg φ s).1 from hl)]
    simp only [rotSeg, rotVtx, rotZ]
    linear_combination ((s.2.x - s.1.x) * (z.2 - s.1.y) - (s.2.y - s.1.y) * (z.1 - s.1.x)) * hsq
  · rw [if_neg hl, if_neg (show ¬ IsLine (rotSeg φ s).1 from hl)]
    have hb := bulge_ne_zero hl
    have e1 : arcRadius (rotSeg φ s).1.pos (rotSeg φ s).2.pos (rotSeg φ s).1.bulge = arcRadius s.1.pos s.2.pos s.1.bulge := by
      have : edist (rotSeg φ s).1.pos (rotSeg φ s).2.pos = edist s.1.pos s.2.pos := by
        unfold edist
        simp only [Vertex.pos, rotSeg, rotVtx]
        congr 1
        linear_combination ((s.1.x - s.2.x) ^ 2 + (s.1.y - s.2.y) ^ 2) * hsq
      simp only [arcRadius, this]
      rfl
    have e2 : arcCenter (rotSeg φ s).1.pos (rotSeg φ s).2.pos (rotSeg φ s).1.bulge = rotV φ (arcCenter s.1.pos s.2.pos s.1.bulge) := by
      rw [V2.ext_iff']
      simp only [arcCenter, rotSeg, rotVtx, rotV, Vertex.pos]
      constructor <;> ring
    rw [e1, e2]
    simp only [rotV, rotZ]
    have : (rotSeg φ s).1.bulge = s.1.bulge := rfl
    rw [this]
    linear_combination (-2 * arctan s.1.bulge * ((z.1 - (arcCenter s.1.pos s.2.pos s.1.bulge).x) ^ 2 + (z.2 - (arcCenter s.1.pos s.2.pos s.1.bulge).y) ^ 2)) * hsq

open Classical in
/-- **The two sides.** In a closed list of segments of which just one passes through a point, the sum of what they add is, near the point, some number on the
right of that segment and one more on its left. -/
theorem two_sides {L1 L2 : List (Vertex ℝ × Vertex ℝ)} {s : Vertex ℝ × Vertex ℝ} (h : ∀ e ∈ L1 ++ s :: L2, Proper e)
    (hc : ((L1 ++ s :: L2).map fun s => s.2.pos).Perm ((L1 ++ s :: L2).map fun s => s.1.pos)) (hne : s.1.pos ≠ s.2.pos) {t₀ : ℝ} (h0 : 0 < t₀) (h1 : t₀ < 1)
    (hoff : ∀ e ∈ L1 ++ L2, ((segCurve s.1 s.2 t₀).x, (segCurve s.1 s.2 t₀).y) ∉ segTrace e) :
    ∃ w : ℤ, ∀ᶠ z in 𝓝 ((segCurve s.1 s.2 t₀).x, (segCurve s.1 s.2 t₀).y), sideOf s z ≠ 0 →
      (∀ e ∈ L1 ++ s :: L2, z ∉ segTrace e) ∧ ((L1 ++ s :: L2).map (segW z)).sum = w + if 0 < sideOf s z then 1 else 0 := by
  have hs : Proper s := h s (by simp)
  obtain ⟨a, b, hab, hx, hy, -⟩ := seg_tangent hs hne t₀
  obtain ⟨ψ, ⟨ρ, hρ, ea, eb⟩, -, -⟩ := dir_exists hab
  set φ := π / 2 - ψ with hφ
  have cφ : cos φ = sin ψ := cos_pi_div_two_sub ψ
  have sφ : sin φ = cos ψ := sin_pi_div_two_sub ψ
  have hsq := sin_sq_add_cos_sq ψ
  have hcurve : ∀ t, (segCurve (rotSeg φ s).1 (rotSeg φ s).2 t).x = (segCurve s.1 s.2 t).x * cos φ - (segCurve s.1 s.2 t).y * sin φ ∧
      (segCurve (rotSeg φ s).1 (rotSeg φ s).2 t).y = (segCurve s.1 s.2 t).x * sin φ + (segCurve s.1 s.2 t).y * cos φ := by
    intro t
    unfold rotSeg
    dsimp only
    rw [segCurve_rot]
    exact ⟨rfl, rfl⟩
  have hx' : HasDerivAt (fun t => (segCurve (rotSeg φ s).1 (rotSeg φ s).2 t).x) 0 t₀ := by
    rw [show (fun t => (segCurve (rotSeg φ s).1 (rotSeg φ s).2 t).x) = fun t => (segCurve s.1 s.2 t).x * cos φ - (segCurve s.1 s.2 t).y * sin φ from
      funext fun t => (hcurve t).1]
    refine ((hx.mul_const (cos φ)).sub (hy.mul_const (sin φ))).congr_deriv ?_
    rw [ea, eb, cφ, sφ]; ring
  have hy' : HasDerivAt (fun t => (segCurve (rotSeg φ s).1 (rotSeg φ s).2 t).y) ρ t₀ := by
    rw [show (fun t => (segCurve (rotSeg φ s).1 (rotSeg φ s).2 t).y) = fun t => (segCurve s.1 s.2 t).x * sin φ + (segCurve s.1 s.2 t).y * cos φ from
      funext fun t => (hcurve t).2]
    refine ((hx.mul_const (sin φ)).add (hy.mul_const (cos φ))).congr_deriv ?_
    rw [ea, eb, cφ, sφ]; linear_combination ρ * hsq
  set Z := segCurve s.1 s.2 t₀ with hZ
  have hZrot : ((segCurve (rotSeg φ s).1 (rotSeg φ s).2 t₀).x, (segCurve (rotSeg φ s).1 (rotSeg φ s).2 t₀).y) = rotZ φ (Z.x, Z.y) :=
    Prod.ext (hcurve t₀).1 (hcurve t₀).2
  have hc' : ((L1.map (rotSeg φ) ++ rotSeg φ s :: L2.map (rotSeg φ)).map fun s => s.2.pos).Perm
      ((L1.map (rotSeg φ) ++ rotSeg φ s :: L2.map (rotSeg φ)).map fun s => s.1.pos) := by
    have := hc.map (rotV φ)
    rw [← List.map_cons (f := rotSeg φ), ← List.map_append]
    simp only [List.map_map] at this ⊢
    exact this
  obtain ⟨y1, y2, hup⟩ := side_up (proper_rot φ hs) h0 h1 hρ hx' hy'
  have hot := others_const (L1 := L1.map (rotSeg φ)) (L2 := L2.map (rotSeg φ)) (s := rotSeg φ s) (Z := rotZ φ (Z.x, Z.y)) (by
      intro e he
      rw [← List.map_append] at he
      obtain ⟨e', he', rfl⟩ := List.mem_map.mp he
      exact proper_rot φ (h e' (by rcases List.mem_append.mp he' with g | g <;> simp [g]))) hc' (by rw [← hZrot]; exact y1) (by rw [← hZrot]; exact y2) (by
      intro e he
      rw [← List.map_append] at he
      obtain ⟨e', he', rfl⟩ := List.mem_map.mp he
      rw [mem_segTrace_rot]
      exact hoff e' he')
  rw [hZrot] at hup
  have hcont : Tendsto (rotZ φ) (𝓝 (Z.x, Z.y)) (𝓝 (rotZ φ (Z.x, Z.y))) := by
    have : Continuous (rotZ φ) := by unfold rotZ; fun_prop
    exact this.continuousAt
  refine ⟨((L1.map (rotSeg φ) ++ L2.map (rotSeg φ)).map (segW (rotZ φ (Z.x, Z.y)))).sum, ?_⟩
  filter_upwards [hcont.eventually hup, hcont.eventually hot] with z g1 g2 hside
  rw [sideOf_rot φ hs] at g1
  have hall : ∀ e ∈ L1 ++ s :: L2, z ∉ segTrace e := by
    have hoth : ∀ e ∈ L1 ++ L2, z ∉ segTrace e := by
      intro e he
      have := g2.1 (rotSeg φ e) (by rw [← List.map_append]; exact List.mem_map.mpr ⟨e, he, rfl⟩)
      rwa [mem_segTrace_rot] at this
    intro e he
    rcases List.mem_append.mp he with he | he
    · exact hoth e (by simp [he])
    · rcases List.mem_cons.mp he with rfl | he
      · exact sideOf_trace hs hside
      · exact hoth e (by simp [he])
  refine ⟨hall, ?_⟩
  rw [← segW_sum_rot φ _ h hc hall, ← g2.2, ← g1 hside]
  simp only [List.map_append, List.map_cons, List.sum_append, List.sum_cons]
  ring

end Cavc
