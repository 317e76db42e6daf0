import Verif.Lemmas.Balance
import Mathlib.Analysis.SpecialFunctions.Trigonometric.Deriv
import Mathlib.Analysis.Calculus.Deriv.Add
import Mathlib.Analysis.Calculus.Deriv.Mul

/-! # The winding number changes by one where a single segment is crossed -/

set_option linter.unusedSectionVars false
set_option linter.unusedVariables false

namespace Cavc
open Real Pline

/-- The points of an arc from one of them. -/
theorem arc_from (p q : V2 ℝ) (b t₀ t : ℝ) :
    (arcPoint p q b t).x = (arcCenter p q b).x + ((arcPoint p q b t₀).x - (arcCenter p q b).x) * cos ((t - t₀) * (4 * arctan b))
      - ((arcPoint p q b t₀).y - (arcCenter p q b).y) * sin ((t - t₀) * (4 * arctan b)) ∧
    (arcPoint p q b t).y = (arcCenter p q b).y + ((arcPoint p q b t₀).x - (arcCenter p q b).x) * sin ((t - t₀) * (4 * arctan b))
      + ((arcPoint p q b t₀).y - (arcCenter p q b).y) * cos ((t - t₀) * (4 * arctan b)) := by
  set θ := 4 * arctan b
  have h : t * θ = t₀ * θ + (t - t₀) * θ := by ring
  have hc : cos (t * θ) = cos (t₀ * θ) * cos ((t - t₀) * θ) - sin (t₀ * θ) * sin ((t - t₀) * θ) := by rw [h, cos_add]
  have hs : sin (t * θ) = sin (t₀ * θ) * cos ((t - t₀) * θ) + cos (t₀ * θ) * sin ((t - t₀) * θ) := by rw [h, sin_add]
  simp only [arcPoint, rotV]
  change _ + (_ * cos (t * θ) - _ * sin (t * θ)) = _ ∧ _ + (_ * sin (t * θ) + _ * cos (t * θ)) = _
  rw [hc, hs]
  constructor <;> ring

/-- A straight segment that leads upwards. -/
theorem segW_up_line (s : Vertex ℝ × Vertex ℝ) (h : IsLine s.1) {x0 y0 : ℝ} (h1 : s.1.x = x0) (h2 : s.2.x = x0) (hy1 : s.1.y < y0) (hy2 : y0 < s.2.y) :
    (∀ x, x < x0 → segW (x, y0) s = 1) ∧ (∀ x, x0 < x → segW (x, y0) s = 0) ∧ ∀ x, x ≠ x0 → (x, y0) ∉ segTrace s := by
  have e : ∀ x, segW (x, y0) s = if 0 < (x0 - x) * (s.2.y - s.1.y) then 1 else 0 := by
    intro x
    unfold segW segWinding
    rw [bulgeIsZero_true h, if_pos rfl, lineWinding_eq]
    dsimp only
    rw [if_pos (by linarith), h1, h2]
    have e : (x0 - x) * (s.2.y - y0) - (x0 - x) * (s.1.y - y0) = (x0 - x) * (s.2.y - s.1.y) := by ring
    rw [e]
    have : 0 < s.2.y - y0 := by linarith
    simp [this]
  have hp : 0 < s.2.y - s.1.y := by linarith
  refine ⟨fun x hx => ?_, fun x hx => ?_, fun x hx => ?_⟩
  · rw [e, if_pos (mul_pos (by linarith) hp)]
  · rw [e, if_neg (by nlinarith)]
  · rintro ⟨t, -, -, ht⟩
    rw [segCurve_line h, V2.ext_iff'] at ht
    apply hx
    have := ht.1
    simp only [linePoint, Vertex.pos_x, h1, h2] at this
    linarith

set_option maxHeartbeats 800000 in
/-- An arc that leads upwards where its tangent is upright. -/
theorem segW_up_arc (s : Vertex ℝ × Vertex ℝ) (h : ProperArc s.1 s.2) {t₀ : ℝ} (h0 : 0 < t₀) (h1 : t₀ < 1) (hy : (segCurve s.1 s.2 t₀).y = (arcCenter s.1.pos s.2.pos s.1.bulge).y)
    (hx : 0 < s.1.bulge * ((segCurve s.1 s.2 t₀).x - (arcCenter s.1.pos s.2.pos s.1.bulge).x)) :
    ∃ δ > 0, ∀ k, 0 < k → k < δ → segW ((segCurve s.1 s.2 t₀).x - k, (segCurve s.1 s.2 t₀).y) s = segW ((segCurve s.1 s.2 t₀).x + k, (segCurve s.1 s.2 t₀).y) s + 1 ∧
      ((segCurve s.1 s.2 t₀).x - k, (segCurve s.1 s.2 t₀).y) ∉ segTrace s ∧ ((segCurve s.1 s.2 t₀).x + k, (segCurve s.1 s.2 t₀).y) ∉ segTrace s := by
  classical
  obtain ⟨v1, v2⟩ := s
  dsimp only at *
  have hb0 := bulge_ne_zero h.notLine
  have hr := arcRadius_pos h.ne hb0
  have harc := segCurve_arc (v2 := v2) h.notLine
  set b := v1.bulge with hb
  set c := arcCenter v1.pos v2.pos b with hc
  set r := arcRadius v1.pos v2.pos b with hrd
  set Z := segCurve v1 v2 t₀ with hZ
  set θ := 4 * arctan b with hθ
  have hθπ : |θ| ≤ π := abs_four_arctan_le h.half
  have hdist : (Z.x - c.x) ^ 2 = r ^ 2 := by
    have := arcPoint_dist_sq v1.pos v2.pos b t₀ hb0
    rw [← harc, ← hc, ← hrd, ← hZ, hy] at this
    linarith
  have e1 := arc_from v1.pos v2.pos b t₀ 0
  have e2 := arc_from v1.pos v2.pos b t₀ 1
  rw [← harc, ← harc, ← hZ, ← hc, hy, (segCurve_ends v1 v2).1] at e1
  rw [← harc, ← harc, ← hZ, ← hc, hy, (segCurve_ends v1 v2).2] at e2
  simp only [sub_self, zero_mul, sub_zero, add_zero, Vertex.pos_x, Vertex.pos_y] at e1 e2
  rw [← hθ] at e1 e2
  have hoff : ∀ k, 0 < |k| → |k| < r → (Z.x + k, c.y) ∉ segTrace (v1, v2) := by
    rintro k k0 k1 ⟨t, -, -, ht⟩
    dsimp only at ht
    have := arcPoint_dist_sq v1.pos v2.pos b t hb0
    rw [← harc, ← ht, ← hc, ← hrd] at this
    dsimp only at this
    have hk : k * (2 * (Z.x - c.x) + k) = 0 := by nlinarith
    rcases mul_eq_zero.mp hk with h' | h'
    · rw [h'] at k0; simp at k0
    · have : k ^ 2 = 4 * r ^ 2 := by rw [← hdist]; have : k = -(2 * (Z.x - c.x)) := by linarith
                                     rw [this]; ring
      have h3 : |k| ^ 2 = 4 * r ^ 2 := by rw [sq_abs]; exact this
      nlinarith [abs_nonneg k]
  rcases lt_or_gt_of_ne hb0 with hneg | hpos
  · -- clockwise
    have hX : Z.x - c.x = -r := by
      have : Z.x - c.x < 0 := by
        by_contra hn; push Not at hn
        nlinarith
      nlinarith
    have hθ0 : θ < 0 := by
      have := arctan_lt_zero.mpr hneg
      rw [hθ]; linarith
    set A := -(t₀ * θ) with hA
    set B := -((1 - t₀) * θ) with hB
    have hA0 : 0 < A := by nlinarith
    have hB0 : 0 < B := by nlinarith
    have hAB : A + B ≤ π := by
      have := (abs_le.mp hθπ).1
      rw [hA, hB]; linarith
    have sA := sin_pos_of_pos_of_lt_pi hA0 (by linarith)
    have sB := sin_pos_of_pos_of_lt_pi hB0 (by linarith)
    have a1 : (0 - t₀) * θ = A := by rw [hA]; ring
    have b1 : (1 - t₀) * θ = -B := by rw [hB]; ring
    rw [a1, hX] at e1
    rw [b1, hX, cos_neg, sin_neg] at e2
    have key : ∀ k, segW (Z.x + k, c.y) (v1, v2) = -ccwTable (v2.x - (Z.x + k)) (v2.y - c.y) (v1.x - (Z.x + k)) (v1.y - c.y)
        (0 < (v2.x - (Z.x + k)) * (v1.y - c.y) - (v1.x - (Z.x + k)) * (v2.y - c.y)) ((c.x - (Z.x + k)) ^ 2 + (c.y - c.y) ^ 2 < r ^ 2) := by
      intro k
      unfold segW segWinding
      rw [if_neg (by rw [bulgeIsZero_false h.notLine]; simp), arcWinding_cw v1 v2 hneg h.ne, arcCenter_swap _ _ _ hb0, arcRadius_swap]
    have hv2 : ¬ v2.y - c.y ≤ 0 := by rw [e2.2]; push Not; nlinarith
    have hv1 : v1.y - c.y ≤ 0 := by rw [e1.2]; nlinarith
    refine ⟨r, hr, fun k k0 k1 => ?_⟩
    rw [hy]
    refine ⟨?_, hoff (-k) (by rw [abs_neg, abs_of_pos k0]; exact k0) (by rw [abs_neg, abs_of_pos k0]; exact k1), hoff k (by rw [abs_of_pos k0]; exact k0) (by rw [abs_of_pos k0]; exact k1)⟩
    have l1 := key (-k)
    have l2 := key k
    rw [show Z.x - k = Z.x + -k by ring, l1, l2]
    unfold ccwTable
    rw [if_neg hv2, if_neg hv2, if_pos hv1, if_pos hv1]
    have n1 : ¬ 0 < (v2.x - (Z.x + -k)) * (v1.y - c.y) - (v1.x - (Z.x + -k)) * (v2.y - c.y) := by
      push Not
      have hz : Z.x = c.x - r := by linarith
      rw [e1.1, e1.2, e2.1, e2.2, hz]
      have cA := cos_le_one A
      have cB := cos_le_one B
      have : (c.x + -r * cos B - (c.x - r + -k)) * (c.y + -r * sin A - c.y) - (c.x + -r * cos A - (c.x - r + -k)) * (c.y + -r * -sin B - c.y)
          = -(r * (r * (1 - cos B) + k) * sin A) - r * (r * (1 - cos A) + k) * sin B := by ring
      rw [this]
      have m1 : 0 ≤ r * (r * (1 - cos B) + k) * sin A := by
        have : 0 ≤ r * (1 - cos B) := mul_nonneg hr.le (by linarith)
        positivity
      have m2 : 0 ≤ r * (r * (1 - cos A) + k) * sin B := by
        have : 0 ≤ r * (1 - cos A) := mul_nonneg hr.le (by linarith)
        positivity
      linarith
    have n2 : ¬ (c.x - (Z.x + -k)) ^ 2 + (c.y - c.y) ^ 2 < r ^ 2 := by
      have hz : Z.x = c.x - r := by linarith
      rw [hz]; push Not; nlinarith
    have n3 : (c.x - (Z.x + k)) ^ 2 + (c.y - c.y) ^ 2 < r ^ 2 := by
      have hz : Z.x = c.x - r := by linarith
      rw [hz]; nlinarith
    rw [if_pos n1, if_pos n2, if_neg (not_not.mpr n3), ite_self]
    norm_num
  · -- counter clockwise
    have hX : Z.x - c.x = r := by
      have : 0 < Z.x - c.x := by
        by_contra hn; push Not at hn
        nlinarith
      nlinarith
    have hθ0 : 0 < θ := by
      have := arctan_pos.mpr hpos
      rw [hθ]; linarith
    set A := t₀ * θ with hA
    set B := (1 - t₀) * θ with hB
    have hA0 : 0 < A := by positivity
    have hB0 : 0 < B := mul_pos (by linarith) hθ0
    have hAB : A + B ≤ π := by
      have := (abs_le.mp hθπ).2
      rw [hA, hB]; linarith
    have sA := sin_pos_of_pos_of_lt_pi hA0 (by linarith)
    have sB := sin_pos_of_pos_of_lt_pi hB0 (by linarith)
    have a1 : (0 - t₀) * θ = -A := by rw [hA]; ring
    rw [a1, hX, cos_neg, sin_neg] at e1
    rw [hX] at e2
    have key : ∀ k, segW (Z.x + k, c.y) (v1, v2) = ccwTable (v1.x - (Z.x + k)) (v1.y - c.y) (v2.x - (Z.x + k)) (v2.y - c.y)
        (0 < (v1.x - (Z.x + k)) * (v2.y - c.y) - (v2.x - (Z.x + k)) * (v1.y - c.y)) ((c.x - (Z.x + k)) ^ 2 + (c.y - c.y) ^ 2 < r ^ 2) := by
      intro k
      unfold segW segWinding
      rw [if_neg (by rw [bulgeIsZero_false h.notLine]; simp), arcWinding_ccw v1 v2 hpos h.ne]
    have hv2 : 0 < v2.y - c.y := by rw [e2.2]; nlinarith
    have hv1 : v1.y - c.y ≤ 0 := by rw [e1.2]; nlinarith
    refine ⟨r, hr, fun k k0 k1 => ?_⟩
    rw [hy]
    refine ⟨?_, hoff (-k) (by rw [abs_neg, abs_of_pos k0]; exact k0) (by rw [abs_neg, abs_of_pos k0]; exact k1), hoff k (by rw [abs_of_pos k0]; exact k0) (by rw [abs_of_pos k0]; exact k1)⟩
    have l1 := key (-k)
    have l2 := key k
    rw [show Z.x - k = Z.x + -k by ring, l1, l2]
    unfold ccwTable
    rw [if_pos hv1, if_pos hv1, if_pos hv2, if_pos hv2]
    have hz : Z.x = c.x + r := by linarith
    have n1 : ¬ 0 < (v1.x - (Z.x + k)) * (v2.y - c.y) - (v2.x - (Z.x + k)) * (v1.y - c.y) := by
      push Not
      rw [e1.1, e1.2, e2.1, e2.2, hz]
      have cA := cos_le_one A
      have cB := cos_le_one B
      have : (c.x + r * cos A - (c.x + r + k)) * (c.y + r * sin B - c.y) - (c.x + r * cos B - (c.x + r + k)) * (c.y + r * -sin A - c.y)
          = -(r * (r * (1 - cos B) + k) * sin A) - r * (r * (1 - cos A) + k) * sin B := by ring
      rw [this]
      have m1 : 0 ≤ r * (r * (1 - cos B) + k) * sin A := by
        have : 0 ≤ r * (1 - cos B) := mul_nonneg hr.le (by linarith)
        positivity
      have m2 : 0 ≤ r * (r * (1 - cos A) + k) * sin B := by
        have : 0 ≤ r * (1 - cos A) := mul_nonneg hr.le (by linarith)
        positivity
      linarith
    have n2 : ¬ (c.x - (Z.x + k)) ^ 2 + (c.y - c.y) ^ 2 < r ^ 2 := by
      rw [hz]; push Not; nlinarith
    have n3 : (c.x - (Z.x + -k)) ^ 2 + (c.y - c.y) ^ 2 < r ^ 2 := by
      rw [hz]; nlinarith
    rw [if_neg n1, if_neg n2, if_pos n3, ite_self]
    norm_num

theorem line_deriv (p q : V2 ℝ) (t : ℝ) : HasDerivAt (fun t => (linePoint p q t).x) (q.x - p.x) t ∧ HasDerivAt (fun t => (linePoint p q t).y) (q.y - p.y) t := by
  have h := hasDerivAt_id t
  constructor
  · simpa [linePoint] using (h.mul_const (q.x - p.x)).const_add p.x
  · simpa [linePoint] using (h.mul_const (q.y - p.y)).const_add p.y

theorem arc_deriv (p q : V2 ℝ) (b t : ℝ) :
    HasDerivAt (fun t => (arcPoint p q b t).x) (-(4 * arctan b) * ((arcPoint p q b t).y - (arcCenter p q b).y)) t ∧
    HasDerivAt (fun t => (arcPoint p q b t).y) ((4 * arctan b) * ((arcPoint p q b t).x - (arcCenter p q b).x)) t := by
  have h : HasDerivAt (fun t => t * (4 * arctan b)) (4 * arctan b) t := by simpa using (hasDerivAt_id t).mul_const (4 * arctan b)
  constructor
  · have := ((h.cos.const_mul (p.x - (arcCenter p q b).x)).sub (h.sin.const_mul (p.y - (arcCenter p q b).y))).const_add (arcCenter p q b).x
    refine this.congr_deriv ?_
    simp only [arcPoint, rotV]
    ring
  · have := ((h.sin.const_mul (p.x - (arcCenter p q b).x)).add (h.cos.const_mul (p.y - (arcCenter p q b).y))).const_add (arcCenter p q b).y
    refine this.congr_deriv ?_
    simp only [arcPoint, rotV]
    ring

/-- Where a segment leads straight upwards, what it adds is larger by one on the left. -/
theorem segW_up {s : Vertex ℝ × Vertex ℝ} (h : Proper s) {t₀ ρ : ℝ} (h0 : 0 < t₀) (h1 : t₀ < 1) (hρ : 0 < ρ)
    (hx : HasDerivAt (fun t => (segCurve s.1 s.2 t).x) 0 t₀) (hy : HasDerivAt (fun t => (segCurve s.1 s.2 t).y) ρ t₀) :
    ∃ δ > 0, ∀ k, 0 < k → k < δ → segW ((segCurve s.1 s.2 t₀).x - k, (segCurve s.1 s.2 t₀).y) s = segW ((segCurve s.1 s.2 t₀).x + k, (segCurve s.1 s.2 t₀).y) s + 1 ∧
      ((segCurve s.1 s.2 t₀).x - k, (segCurve s.1 s.2 t₀).y) ∉ segTrace s ∧ ((segCurve s.1 s.2 t₀).x + k, (segCurve s.1 s.2 t₀).y) ∉ segTrace s := by
  rcases h with hl | ha
  · have hf : segCurve s.1 s.2 = linePoint s.1.pos s.2.pos := funext (segCurve_line hl)
    rw [hf] at hx hy ⊢
    obtain ⟨d1, d2⟩ := line_deriv s.1.pos s.2.pos t₀
    have e1 := hx.unique d1
    have e2 := hy.unique d2
    simp only [Vertex.pos_x, Vertex.pos_y] at e1 e2
    have hX : (linePoint s.1.pos s.2.pos t₀).x = s.1.x := by simp only [linePoint, Vertex.pos_x]; rw [← e1]; ring
    have hY : (linePoint s.1.pos s.2.pos t₀).y = s.1.y + t₀ * ρ := by simp only [linePoint, Vertex.pos_y]; rw [← e2]
    obtain ⟨a, b, c⟩ := segW_up_line s hl (x0 := s.1.x) (y0 := s.1.y + t₀ * ρ) rfl (by linarith) (by nlinarith) (by nlinarith)
    refine ⟨1, one_pos, fun k k0 _ => ?_⟩
    rw [hX, hY]
    refine ⟨?_, c _ (by linarith), c _ (by linarith)⟩
    rw [a _ (by linarith), b _ (by linarith)]
    norm_num
  · have hf : segCurve s.1 s.2 = arcPoint s.1.pos s.2.pos s.1.bulge := funext (segCurve_arc ha.notLine)
    rw [hf] at hx hy
    obtain ⟨d1, d2⟩ := arc_deriv s.1.pos s.2.pos s.1.bulge t₀
    have e1 := hx.unique d1
    have e2 := hy.unique d2
    rw [← hf] at e1 e2
    have hb0 := bulge_ne_zero ha.notLine
    have ht0 : arctan s.1.bulge ≠ 0 := by rwa [Ne, arctan_eq_zero_iff]
    refine segW_up_arc s ha h0 h1 ?_ ?_
    · have := mul_eq_zero.mp e1.symm
      rcases this with h | h
      · exact absurd (by linarith) ht0
      · linarith
    · have hpos : 0 < arctan s.1.bulge * ((segCurve s.1 s.2 t₀).x - (arcCenter s.1.pos s.2.pos s.1.bulge).x) := by nlinarith
      rcases lt_or_gt_of_ne hb0 with hn | hp
      · have := arctan_lt_zero.mpr hn
        have : (segCurve s.1 s.2 t₀).x - (arcCenter s.1.pos s.2.pos s.1.bulge).x < 0 := by
          by_contra hc; push Not at hc; nlinarith
        exact mul_pos_of_neg_of_neg hn this
      · have := arctan_pos.mpr hp
        have : 0 < (segCurve s.1 s.2 t₀).x - (arcCenter s.1.pos s.2.pos s.1.bulge).x := by
          by_contra hc; push Not at hc; nlinarith
        exact mul_pos hp this

/-- points on both sides, close to a point off a segment -/
theorem segW_across {s : Vertex ℝ × Vertex ℝ} (h : Proper s) {z : ℝ × ℝ} (hz : z ∉ segTrace s) :
    ∃ δ > 0, ∀ k, 0 < k → k < δ → segW (z.1 - k, z.2) s = segW (z.1 + k, z.2) s ∧ (z.1 - k, z.2) ∉ segTrace s ∧ (z.1 + k, z.2) ∉ segTrace s := by
  obtain ⟨δ, hδ, hb⟩ := segW_change s h hz
  have key : ∀ k, |k| < δ → (z.1 + k, z.2) ∉ segTrace s ∧ segW (z.1 + k, z.2) s = segW z s := by
    intro k hk
    have := hb (z.1 + k, z.2) (by
      rw [Metric.mem_ball, Prod.dist_eq]
      simp only [dist_self, Real.dist_eq, add_sub_cancel_left]
      exact max_lt hk hδ)
    rw [if_neg (lt_irrefl _), add_zero] at this
    exact this
  refine ⟨δ, hδ, fun k k0 k1 => ?_⟩
  have a1 := key k (by rwa [abs_of_pos k0])
  have a2 := key (-k) (by rwa [abs_neg, abs_of_pos k0])
  rw [sub_eq_add_neg]
  exact ⟨a2.2.trans a1.2.symm, a2.1, a1.1⟩

/-- The same for a list of segments of which just one passes through the point. -/
theorem sum_up {L1 L2 : List (Vertex ℝ × Vertex ℝ)} {s : Vertex ℝ × Vertex ℝ} (h : ∀ e ∈ L1 ++ s :: L2, Proper e) {t₀ ρ : ℝ} (h0 : 0 < t₀) (h1 : t₀ < 1) (hρ : 0 < ρ)
    (hx : HasDerivAt (fun t => (segCurve s.1 s.2 t).x) 0 t₀) (hy : HasDerivAt (fun t => (segCurve s.1 s.2 t).y) ρ t₀)
    (hoff : ∀ e ∈ L1 ++ L2, ((segCurve s.1 s.2 t₀).x, (segCurve s.1 s.2 t₀).y) ∉ segTrace e) :
    ∃ δ > 0, ∀ k, 0 < k → k < δ →
      ((L1 ++ s :: L2).map (segW ((segCurve s.1 s.2 t₀).x - k, (segCurve s.1 s.2 t₀).y))).sum =
        ((L1 ++ s :: L2).map (segW ((segCurve s.1 s.2 t₀).x + k, (segCurve s.1 s.2 t₀).y))).sum + 1 ∧
      ∀ e ∈ L1 ++ s :: L2, ((segCurve s.1 s.2 t₀).x - k, (segCurve s.1 s.2 t₀).y) ∉ segTrace e ∧ ((segCurve s.1 s.2 t₀).x + k, (segCurve s.1 s.2 t₀).y) ∉ segTrace e := by
  set Z := segCurve s.1 s.2 t₀
  obtain ⟨δ₁, hδ₁, k1⟩ := segW_up (h s (by simp)) h0 h1 hρ hx hy
  obtain ⟨δ₂, hδ₂, k2⟩ := list_radius (fun (e : Vertex ℝ × Vertex ℝ) δ => ∀ k, 0 < k → k < δ → segW (Z.x - k, Z.y) e = segW (Z.x + k, Z.y) e ∧ (Z.x - k, Z.y) ∉ segTrace e ∧ (Z.x + k, Z.y) ∉ segTrace e)
    (fun a δ δ' hle h k k0 k1 => h k k0 (k1.trans_le hle)) (L1 ++ L2) (fun e he => segW_across (h e (by
      rcases List.mem_append.mp he with he | he <;> simp [he])) (hoff e he))
  refine ⟨min δ₁ δ₂, lt_min hδ₁ hδ₂, fun k k0 hk => ?_⟩
  obtain ⟨hk1, hk2⟩ := lt_min_iff.mp hk
  have a1 := k1 k k0 hk1
  have a2 := fun e he => k2 e he k k0 hk2
  constructor
  · simp only [List.map_append, List.map_cons, List.sum_append, List.sum_cons]
    rw [sum_congr_list (L := L1) (fun e he => (a2 e (by simp [he])).1), sum_congr_list (L := L2) (fun e he => (a2 e (by simp [he])).1), a1.1]
    ring
  · intro e he
    rcases List.mem_append.mp he with he | he
    · exact (a2 e (by simp [he])).2
    · rcases List.mem_cons.mp he with rfl | he
      · exact a1.2
      · exact (a2 e (by simp [he])).2

/-- **The jump.** In a closed list of segments of which just one passes through a point, the sum of what they add is larger by one on the left of that
segment. -/
theorem jump {L1 L2 : List (Vertex ℝ × Vertex ℝ)} {s : Vertex ℝ × Vertex ℝ} (h : ∀ e ∈ L1 ++ s :: L2, Proper e)
    (hc : ((L1 ++ s :: L2).map fun s => s.2.pos).Perm ((L1 ++ s :: L2).map fun s => s.1.pos)) {t₀ a b : ℝ} (h0 : 0 < t₀) (h1 : t₀ < 1) (hab : a ≠ 0 ∨ b ≠ 0)
    (hx : HasDerivAt (fun t => (segCurve s.1 s.2 t).x) a t₀) (hy : HasDerivAt (fun t => (segCurve s.1 s.2 t).y) b t₀)
    (hoff : ∀ e ∈ L1 ++ L2, ((segCurve s.1 s.2 t₀).x, (segCurve s.1 s.2 t₀).y) ∉ segTrace e) :
    ∃ δ > 0, ∀ k, 0 < k → k < δ →
      ((L1 ++ s :: L2).map (segW ((segCurve s.1 s.2 t₀).x - k * b, (segCurve s.1 s.2 t₀).y + k * a))).sum =
        ((L1 ++ s :: L2).map (segW ((segCurve s.1 s.2 t₀).x + k * b, (segCurve s.1 s.2 t₀).y - k * a))).sum + 1 := by
  obtain ⟨ψ, ⟨ρ, hρ, ea, eb⟩, -, -⟩ := dir_exists hab
  set φ := π / 2 - ψ with hφ
  have cφ : cos φ = sin ψ := cos_pi_div_two_sub ψ
  have sφ : sin φ = cos ψ := sin_pi_div_two_sub ψ
  have hsq := sin_sq_add_cos_sq ψ
  have hcurve : ∀ t, (segCurve (rotSeg φ s).1 (rotSeg φ s).2 t).x = (segCurve s.1 s.2 t).x * cos φ - (segCurve s.1 s.2 t).y * sin φ ∧
      (segCurve (rotSeg φ s).1 (rotSeg φ s).2 t).y = (segCurve s.1 s.2 t).x * sin φ + (segCurve s.1 s.2 t).y * cos φ := by
    intro t
    unfold rotSeg
    dsimp only
    rw [segCurve_rot]
    exact ⟨rfl, rfl⟩
  have hx' : HasDerivAt (fun t => (segCurve (rotSeg φ s).1 (rotSeg φ s).2 t).x) 0 t₀ := by
    rw [show (fun t => (segCurve (rotSeg φ s).1 (rotSeg φ s).2 t).x) = fun t => (segCurve s.1 s.2 t).x * cos φ - (segCurve s.1 s.2 t).y * sin φ from
      funext fun t => (hcurve t).1]
    refine ((hx.mul_const (cos φ)).sub (hy.mul_const (sin φ))).congr_deriv ?_
    rw [ea, eb, cφ, sφ]; ring
  have hy' : HasDerivAt (fun t => (segCurve (rotSeg φ s).1 (rotSeg φ s).2 t).y) ρ t₀ := by
    rw [show (fun t => (segCurve (rotSeg φ s).1 (rotSeg φ s).2 t).y) = fun t => (segCurve s.1 s.2 t).x * sin φ + (segCurve s.1 s.2 t).y * cos φ from
      funext fun t => (hcurve t).2]
    refine ((hx.mul_const (sin φ)).add (hy.mul_const (cos φ))).congr_deriv ?_
    rw [ea, eb, cφ, sφ]; linear_combination ρ * hsq
  set Z := segCurve s.1 s.2 t₀ with hZ
  have hZrot : ((segCurve (rotSeg φ s).1 (rotSeg φ s).2 t₀).x, (segCurve (rotSeg φ s).1 (rotSeg φ s).2 t₀).y) = rotZ φ (Z.x, Z.y) :=
    Prod.ext (hcurve t₀).1 (hcurve t₀).2
  obtain ⟨δ, hδ, hk⟩ := sum_up (L1 := L1.map (rotSeg φ)) (L2 := L2.map (rotSeg φ)) (s := rotSeg φ s) (by
      intro e he
      rw [← List.map_cons, ← List.map_append] at he
      obtain ⟨e', he', rfl⟩ := List.mem_map.mp he
      exact proper_rot φ (h e' he')) h0 h1 hρ hx' hy' (by
      intro e he
      rw [← List.map_append] at he
      obtain ⟨e', he', rfl⟩ := List.mem_map.mp he
      rw [hZrot, mem_segTrace_rot]
      exact hoff e' he')
  rw [← List.map_cons, ← List.map_append] at hk
  refine ⟨δ / ρ, by positivity, fun k k0 k1 => ?_⟩
  rw [lt_div_iff₀ hρ] at k1
  obtain ⟨e1, e2⟩ := hk (k * ρ) (by positivity) k1
  have m1 : ((segCurve (rotSeg φ s).1 (rotSeg φ s).2 t₀).x - k * ρ, (segCurve (rotSeg φ s).1 (rotSeg φ s).2 t₀).y) = rotZ φ (Z.x - k * b, Z.y + k * a) := by
    refine Prod.ext ?_ ?_
    · rw [(hcurve t₀).1]
      simp only [rotZ]
      rw [ea, eb, cφ, sφ]; linear_combination (-k * ρ) * (sin_sq_add_cos_sq ψ).symm
    · rw [(hcurve t₀).2]
      simp only [rotZ]
      rw [ea, eb, cφ, sφ]; ring
  have m2 : ((segCurve (rotSeg φ s).1 (rotSeg φ s).2 t₀).x + k * ρ, (segCurve (rotSeg φ s).1 (rotSeg φ s).2 t₀).y) = rotZ φ (Z.x + k * b, Z.y - k * a) := by
    refine Prod.ext ?_ ?_
    · rw [(hcurve t₀).1]
      simp only [rotZ]
      rw [ea, eb, cφ, sφ]; linear_combination (k * ρ) * (sin_sq_add_cos_sq ψ).symm
    · rw [(hcurve t₀).2]
      simp only [rotZ]
      rw [ea, eb, cφ, sφ]; ring
  rw [m1, m2] at e1
  rw [m1, m2] at e2
  rw [segW_sum_rot φ _ h hc (fun e he => by
      have := (e2 (rotSeg φ e) (List.mem_map.mpr ⟨e, he, rfl⟩)).1
      rwa [mem_segTrace_rot] at this), segW_sum_rot φ _ h hc (fun e he => by
      have := (e2 (rotSeg φ e) (List.mem_map.mpr ⟨e, he, rfl⟩)).2
      rwa [mem_segTrace_rot] at this)] at e1
  exact e1

end Cavc
