import Mathlib.Analysis.SpecialFunctions.Trigonometric.InverseDeriv
import Mathlib.Analysis.SpecialFunctions.Sqrt
import Verif.Lemmas.AreaLines
import Verif.Lemmas.RegionPieces

/-! # The integral of the winding number around an arc and its chord -/

namespace Cavc
open MeasureTheory Set Pline

/-! ### rotations keep areas -/

/-- a rotation as a linear map -/
noncomputable def rotLin (φ : ℝ) : (ℝ × ℝ) →ₗ[ℝ] (ℝ × ℝ) :=
  Matrix.toLin (Module.Basis.finTwoProd ℝ) (Module.Basis.finTwoProd ℝ) !![Real.cos φ, -Real.sin φ; Real.sin φ, Real.cos φ]

theorem rotLin_apply (φ : ℝ) (z : ℝ × ℝ) : rotLin φ z = rotZ φ z := by
  unfold rotLin rotZ
  rw [Matrix.toLin_finTwoProd_apply]
  ext <;> simp <;> ring

theorem rotLin_det (φ : ℝ) : LinearMap.det (rotLin φ) = 1 := by
  unfold rotLin
  rw [LinearMap.det_toLin, Matrix.det_fin_two_of]
  have := Real.sin_sq_add_cos_sq φ
  linarith

theorem rotZ_continuous (φ : ℝ) : Continuous (rotZ φ) := by unfold rotZ; fun_prop

theorem rotZ_neg' (φ : ℝ) (z : ℝ × ℝ) : rotZ (-φ) (rotZ φ z) = z := by
  have := rotZ_neg (-φ) z; rwa [neg_neg] at this

/-- a rotation as a homeomorphism -/
noncomputable def rotHomeo (φ : ℝ) : (ℝ × ℝ) ≃ₜ (ℝ × ℝ) where
  toFun := rotZ φ
  invFun := rotZ (-φ)
  left_inv := rotZ_neg' φ
  right_inv := rotZ_neg φ
  continuous_toFun := rotZ_continuous φ
  continuous_invFun := rotZ_continuous (-φ)

theorem rot_preserving (φ : ℝ) : MeasurePreserving (rotZ φ) := by
  refine ⟨(rotZ_continuous φ).measurable, ?_⟩
  have h := Measure.map_linearMap_addHaar_eq_smul_addHaar (volume : Measure (ℝ × ℝ)) (f := rotLin φ) (by rw [rotLin_det]; exact one_ne_zero)
  have e : (rotLin φ : ℝ × ℝ → ℝ × ℝ) = rotZ φ := funext (rotLin_apply φ)
  rw [e, rotLin_det] at h
  simpa using h

theorem rot_integral (φ : ℝ) (f : ℝ × ℝ → ℝ) : (Integrable (fun z => f (rotZ φ z)) ↔ Integrable f) ∧ ∫ z, f (rotZ φ z) = ∫ z, f z :=
  ⟨(rot_preserving φ).integrable_comp_emb (rotHomeo φ).measurableEmbedding, (rot_preserving φ).integral_comp (rotHomeo φ).measurableEmbedding f⟩

/-! ### the area of a cap of a circle -/

theorem sqrt_integral {r h : ℝ} (hr : 0 < r) (h0 : 0 ≤ h) (h1 : h ≤ r) :
    ∫ u in (-h)..h, Real.sqrt (r ^ 2 - u ^ 2) = r ^ 2 * Real.arcsin (h / r) + h * Real.sqrt (r ^ 2 - h ^ 2) := by
  have hcont : Continuous fun u => Real.sqrt (r ^ 2 - u ^ 2) := by fun_prop
  have hF : Continuous fun u => (r ^ 2 * Real.arcsin (u / r) + u * Real.sqrt (r ^ 2 - u ^ 2)) / 2 := by
    have := Real.continuous_arcsin
    fun_prop
  rw [intervalIntegral.integral_eq_sub_of_hasDerivAt_of_le (by linarith) hF.continuousOn ?_ (hcont.intervalIntegrable _ _)]
  · rw [neg_div, Real.arcsin_neg, neg_sq]
    ring
  · intro u hu
    have hlt : |u| < r := abs_lt.mpr ⟨by linarith [hu.1], by linarith [hu.2]⟩
    have hpos : 0 < r ^ 2 - u ^ 2 := by
      have := sq_lt_sq' (by linarith [(abs_lt.mp hlt).1]) (abs_lt.mp hlt).2
      linarith
    have d1 : HasDerivAt (fun u : ℝ => u / r) (1 / r) u := (hasDerivAt_id u).div_const r
    have n1 : u / r ≠ -1 := by
      intro h; rw [div_eq_iff hr.ne'] at h; linarith [(abs_lt.mp hlt).1]
    have n2 : u / r ≠ 1 := by
      intro h; rw [div_eq_iff hr.ne'] at h; linarith [(abs_lt.mp hlt).2]
    have d2 := (Real.hasDerivAt_arcsin n1 n2).comp u d1
    have d3 : HasDerivAt (fun u : ℝ => r ^ 2 - u ^ 2) (-(2 * u)) u := by
      refine (((hasDerivAt_id u).pow 2).const_sub (r ^ 2)).congr_deriv ?_
      simp
    have d4 := d3.sqrt hpos.ne'
    have d5 := ((d2.const_mul (r ^ 2)).add ((hasDerivAt_id u).mul d4)).div_const 2
    refine d5.congr_deriv ?_
    have e1 : Real.sqrt (1 - (u / r) ^ 2) = Real.sqrt (r ^ 2 - u ^ 2) / r := by
      rw [show 1 - (u / r) ^ 2 = (r ^ 2 - u ^ 2) / r ^ 2 by field_simp, Real.sqrt_div hpos.le, Real.sqrt_sq hr.le]
    have hs : 0 < Real.sqrt (r ^ 2 - u ^ 2) := Real.sqrt_pos.mpr hpos
    have hsq : Real.sqrt (r ^ 2 - u ^ 2) ^ 2 = r ^ 2 - u ^ 2 := Real.sq_sqrt hpos.le
    rw [e1]
    simp only [id]
    field_simp
    nlinarith [hsq]

/-- the points between an arc that goes up and bulges to the right, and its chord -/
def cap (x0 y1 y2 cx cy r : ℝ) : Set (ℝ × ℝ) := {z | z.2 ∈ Ico y1 y2 ∧ z.1 ∈ Ioo x0 (cx + Real.sqrt (r ^ 2 - (z.2 - cy) ^ 2))}

theorem cap_measurable (x0 y1 y2 cx cy r : ℝ) : MeasurableSet (cap x0 y1 y2 cx cy r) := by
  have : cap x0 y1 y2 cx cy r = Prod.swap ⁻¹' regionBetween (fun _ => x0) (fun y => cx + Real.sqrt (r ^ 2 - (y - cy) ^ 2)) (Ico y1 y2) := rfl
  rw [this]
  have hc : Continuous fun y => cx + Real.sqrt (r ^ 2 - (y - cy) ^ 2) := by fun_prop
  exact measurable_swap (measurableSet_regionBetween measurable_const hc.measurable measurableSet_Ico)

theorem cap_volume {x0 y1 y2 cx cy r : ℝ} (hr : 0 < r) (hy : y1 < y2) (hcy : cy = (y1 + y2) / 2) (hcx : cx ≤ x0)
    (hk : (x0 - cx) ^ 2 + ((y2 - y1) / 2) ^ 2 = r ^ 2) :
    volume (cap x0 y1 y2 cx cy r) = ENNReal.ofReal (r ^ 2 * Real.arcsin ((y2 - y1) / 2 / r) - (y2 - y1) / 2 * (x0 - cx)) := by
  have : cap x0 y1 y2 cx cy r = Prod.swap ⁻¹' regionBetween (fun _ => x0) (fun y => cx + Real.sqrt (r ^ 2 - (y - cy) ^ 2)) (Ico y1 y2) := rfl
  have hc : Continuous fun y => cx + Real.sqrt (r ^ 2 - (y - cy) ^ 2) := by fun_prop
  have hsx : Real.sqrt (r ^ 2 - ((y2 - y1) / 2) ^ 2) = x0 - cx := by
    rw [← hk, add_sub_cancel_right, Real.sqrt_sq (by linarith)]
  rw [this, show (volume : Measure (ℝ × ℝ)) = (volume : Measure ℝ).prod volume from rfl,
    (Measure.measurePreserving_swap (μ := (volume : Measure ℝ)) (ν := (volume : Measure ℝ))).measure_preimage
    (measurableSet_regionBetween measurable_const hc.measurable measurableSet_Ico).nullMeasurableSet]
  rw [volume_regionBetween_eq_integral (by simp) (hc.integrableOn_Icc.mono_set Ico_subset_Icc_self) measurableSet_Ico ?_]
  · congr 1
    rw [integral_Ico_eq_integral_Ioc, ← intervalIntegral.integral_of_le hy.le]
    have e1 : ∀ y, ((fun y => cx + Real.sqrt (r ^ 2 - (y - cy) ^ 2)) - fun _ : ℝ => x0) y = (fun u => Real.sqrt (r ^ 2 - u ^ 2) - (x0 - cx)) (y - cy) := by
      intro y; simp only [Pi.sub_apply]; ring
    simp only [e1]
    rw [intervalIntegral.integral_comp_sub_right (fun u => Real.sqrt (r ^ 2 - u ^ 2) - (x0 - cx)) cy,
      show y1 - cy = -((y2 - y1) / 2) by rw [hcy]; ring, show y2 - cy = (y2 - y1) / 2 by rw [hcy]; ring,
      intervalIntegral.integral_sub ((by fun_prop : Continuous fun u => Real.sqrt (r ^ 2 - u ^ 2)).intervalIntegrable _ _) (by simp),
      sqrt_integral hr (by linarith) (by nlinarith [sq_nonneg (x0 - cx)]), hsx]
    simp
    ring
  · intro y hy'
    have h1 : (y - cy) ^ 2 ≤ ((y2 - y1) / 2) ^ 2 := by
      apply sq_le_sq'
      · rw [hcy]; linarith [hy'.1]
      · rw [hcy]; linarith [hy'.2]
    have h2 : x0 - cx ≤ Real.sqrt (r ^ 2 - (y - cy) ^ 2) := by
      rw [← hsx]
      exact Real.sqrt_le_sqrt (by linarith)
    linarith

/-! ### an arc and its chord -/

/-- the chord of a segment, from its end to its start -/
def chordBack (s : Vertex ℝ × Vertex ℝ) : Vertex ℝ × Vertex ℝ := (⟨s.2.x, s.2.y, 0⟩, ⟨s.1.x, s.1.y, 0⟩)

/-- the chord of a segment, from its start to its end -/
def chordOn (s : Vertex ℝ × Vertex ℝ) : Vertex ℝ × Vertex ℝ := (⟨s.1.x, s.1.y, 0⟩, ⟨s.2.x, s.2.y, 0⟩)

theorem isLine_flat (x y : ℝ) : IsLine (⟨x, y, 0⟩ : Vertex ℝ) := by unfold IsLine; norm_num

/-- twice the area between an arc and its chord -/
theorem cap_area {b ℓ r k : ℝ} (hb : 0 < b) (hb1 : b ≤ 1) (hℓ : 0 < ℓ) (hr : r = ℓ * (1 + b ^ 2) / (4 * b)) (hk : k = (1 - b ^ 2) / (4 * b) * ℓ) :
    r ^ 2 * Real.arcsin (ℓ / 2 / r) - ℓ / 2 * k = (4 * Real.arctan b * r ^ 2 - (1 + b ^ 2) / (4 * b) * ℓ ^ 2 + b / 2 * ℓ ^ 2) / 2 := by
  have h1 : Real.arcsin (ℓ / 2 / r) = 2 * Real.arctan b := by
    have hs : Real.sin (2 * Real.arctan b) = ℓ / 2 / r := by
      rw [Real.sin_two_mul, Real.sin_arctan, Real.cos_arctan, hr]
      have hp : 0 < 1 + b ^ 2 := by positivity
      have hq := Real.sq_sqrt hp.le
      have hq0 := Real.sqrt_pos.mpr hp
      field_simp
      rw [hq]
      ring
    rw [← hs]
    apply Real.arcsin_sin
    · have := Real.arctan_pos.mpr hb
      have := Real.pi_pos
      linarith
    · have h2 : Real.arctan b ≤ Real.arctan 1 := Real.arctan_strictMono.monotone hb1
      rw [Real.arctan_one] at h2
      linarith
  rw [h1, hk]
  field_simp
  ring

theorem cap_vertical (v1 v2 : Vertex ℝ) (h : ProperArc v1 v2) (hb : 0 < v1.bulge) (hx : v2.x = v1.x) (hy : v1.y < v2.y) :
    (∀ z, z ∉ segTrace (chordBack (v1, v2)) → (segW z (v1, v2) : ℝ) + (segW z (chordBack (v1, v2)) : ℝ) =
      (cap v1.x v1.y v2.y (arcCenter v1.pos v2.pos v1.bulge).x (arcCenter v1.pos v2.pos v1.bulge).y (arcRadius v1.pos v2.pos v1.bulge)).indicator (fun _ => (1 : ℝ)) z) ∧
    volume (cap v1.x v1.y v2.y (arcCenter v1.pos v2.pos v1.bulge).x (arcCenter v1.pos v2.pos v1.bulge).y (arcRadius v1.pos v2.pos v1.bulge)) =
      ENNReal.ofReal (doubleArcArea v1 v2 / 2) ∧ 0 ≤ doubleArcArea v1 v2 := by
  obtain ⟨b, hbe⟩ : ∃ b, b = v1.bulge := ⟨_, rfl⟩
  obtain ⟨r, hre⟩ : ∃ r, r = arcRadius v1.pos v2.pos v1.bulge := ⟨_, rfl⟩
  obtain ⟨c, hce⟩ : ∃ c, c = arcCenter v1.pos v2.pos v1.bulge := ⟨_, rfl⟩
  have hb1 : b ≤ 1 := by rw [hbe]; exact le_trans (le_abs_self _) h.half
  have hb0 : 0 < b := by rw [hbe]; exact hb
  have hdist : edist v1.pos v2.pos = v2.y - v1.y := by
    unfold edist
    simp only [Vertex.pos, hx]
    rw [show (v1.x - v1.x) ^ 2 + (v1.y - v2.y) ^ 2 = (v2.y - v1.y) ^ 2 by ring, Real.sqrt_sq (by linarith)]
  have hr : r = (v2.y - v1.y) * (1 + b ^ 2) / (4 * b) := by
    rw [hre, arcRadius, hdist, hbe, abs_of_pos hb]
  have hcx : c.x = v1.x - (1 - b ^ 2) / (4 * b) * (v2.y - v1.y) := by
    rw [hce, arcCenter, hbe]; simp only [Vertex.pos, hx]; ring
  have hcy : c.y = (v1.y + v2.y) / 2 := by
    rw [hce, arcCenter]; simp only [Vertex.pos, hx]; ring
  have hk0 : 0 ≤ (1 - b ^ 2) / (4 * b) * (v2.y - v1.y) :=
    mul_nonneg (div_nonneg (by nlinarith) (by linarith)) (by linarith)
  have hr0 : 0 < r := by
    rw [hr]; exact div_pos (mul_pos (by linarith) (by positivity)) (by linarith)
  have hpyth : (v1.x - c.x) ^ 2 + ((v2.y - v1.y) / 2) ^ 2 = r ^ 2 := by
    rw [hcx, hr]; field_simp; ring
  have harea : doubleArcArea v1 v2 = 4 * Real.arctan b * r ^ 2 - (1 + b ^ 2) / (4 * b) * (v2.y - v1.y) ^ 2 + b / 2 * (v2.y - v1.y) ^ 2 := by
    rw [doubleArcArea_eq _ _ hb.ne', ← hre, ← hbe, hx]; ring
  have hvol := cap_volume (x0 := v1.x) (cx := c.x) hr0 hy hcy (by rw [hcx]; linarith) hpyth
  have hca := cap_area hb0 hb1 (by linarith : 0 < v2.y - v1.y) hr (rfl)
  rw [show v1.x - c.x = (1 - b ^ 2) / (4 * b) * (v2.y - v1.y) by rw [hcx]; ring, hca, ← harea] at hvol
  rw [← hre, ← hce]
  refine ⟨?_, hvol, ?_⟩
  · intro z hz
    have hline := segW_line (chordBack (v1, v2)) (isLine_flat _ _) hz
    rw [hline]
    have hcross : crossX (chordBack (v1, v2)) z.2 = v1.x := by
      simp only [crossX, chordBack, hx]; simp
    have hzero : v1.bulgeIsZero = false := bulgeIsZero_false h.notLine
    have harc : segW z (v1, v2) = arcWinding v1 v2 ⟨z.1, z.2⟩ := by
      unfold segW segWinding
      simp [hzero]
    rw [harc, arcWinding_ccw v1 v2 hb h.ne, ← hre, ← hce]
    unfold ccwTable lineW passY
    rw [hcross]
    have hleft : (0 < (v1.x - (⟨z.1, z.2⟩ : V2 ℝ).x) * (v2.y - (⟨z.1, z.2⟩ : V2 ℝ).y) - (v2.x - (⟨z.1, z.2⟩ : V2 ℝ).x) * (v1.y - (⟨z.1, z.2⟩ : V2 ℝ).y)) ↔ z.1 < v1.x := by
      rw [hx, ← mul_sub_left_distrib]
      simp only
      rw [mul_pos_iff_of_pos_right (by linarith)]
      exact sub_pos
    simp only [hleft]
    simp only [chordBack, sub_nonpos, sub_pos, hx]
    have hcirc : v1.x ≤ z.1 → (z.1 < c.x + Real.sqrt (r ^ 2 - (z.2 - c.y) ^ 2) ↔ (c.x - z.1) ^ 2 + (c.y - z.2) ^ 2 < r ^ 2) := by
      intro hxz
      have : 0 ≤ z.1 - c.x := by rw [hcx]; linarith
      rw [← sub_lt_iff_lt_add', Real.lt_sqrt this]
      constructor <;> intro <;> nlinarith
    by_cases hy1 : v1.y ≤ z.2
    · by_cases hy2 : z.2 < v2.y
      · have hne : z.1 ≠ v1.x := by
          intro he
          apply hz
          have := crossX_on (chordBack (v1, v2)) (isLine_flat _ _) (y := z.2) (by simp only [chordBack]; linarith)
            (by simp only [chordBack]; rw [min_eq_right hy.le]; exact hy1) (by simp only [chordBack]; rw [max_eq_left hy.le]; exact hy2.le)
          rw [hcross, ← he] at this
          exact this
        rcases lt_or_gt_of_ne hne with hlt | hgt
        · rw [indicator_of_notMem (fun hc => by linarith [hc.2.1])]
          simp [hy1, hy2, hlt, not_lt.mpr hy1]
        · by_cases hin : (c.x - z.1) ^ 2 + (c.y - z.2) ^ 2 < r ^ 2
          · rw [indicator_of_mem (show z ∈ cap v1.x v1.y v2.y c.x c.y r from ⟨⟨hy1, hy2⟩, hgt, (hcirc hgt.le).mpr hin⟩)]
            simp [hy1, hy2, not_lt.mpr hgt.le, hin]
          · rw [indicator_of_notMem (fun hc => hin ((hcirc hgt.le).mp hc.2.2))]
            simp [hy1, hy2, not_lt.mpr hgt.le, hin]
      · rw [indicator_of_notMem (fun hc => hy2 hc.1.2)]
        have : ¬ (¬ z.1 < v1.x ∧ v1.x - z.1 < 0 ∧ z.1 < v1.x ∧ (c.x - z.1) ^ 2 + (c.y - z.2) ^ 2 < r ^ 2) := fun hc => hc.1 hc.2.2.1
        simp [hy1, hy2, not_lt.mpr hy1]
        intro h1 _ h2; linarith
    · have hy1' := not_le.mp hy1
      rw [indicator_of_notMem (fun hc => hy1 hc.1.1)]
      simp [hy1, hy1', not_le.mpr (lt_trans hy1' hy), lt_trans hy1' hy]
      intro h1 h2 h3; linarith
  · have : 0 ≤ r ^ 2 * Real.arcsin ((v2.y - v1.y) / 2 / r) - (v2.y - v1.y) / 2 * ((1 - b ^ 2) / (4 * b) * (v2.y - v1.y)) := by
      have q0 : 0 ≤ (v2.y - v1.y) / 2 / r := div_nonneg (by linarith) hr0.le
      have q1 : (v2.y - v1.y) / 2 / r ≤ 1 := by
        rw [div_le_one hr0]
        nlinarith [sq_nonneg (v1.x - c.x)]
      have q2 : (v2.y - v1.y) / 2 / r ≤ Real.arcsin ((v2.y - v1.y) / 2 / r) := by
        have := Real.sin_le (Real.arcsin_nonneg.mpr q0)
        rwa [Real.sin_arcsin (by linarith) q1] at this
      have q3 : (1 - b ^ 2) / (4 * b) * (v2.y - v1.y) ≤ r := by
        have e : (1 - b ^ 2) / (4 * b) * (v2.y - v1.y) = v1.x - c.x := by rw [hcx]; ring
        rw [e]
        nlinarith [sq_nonneg ((v2.y - v1.y) / 2)]
      have q4 : r ^ 2 * ((v2.y - v1.y) / 2 / r) = r * ((v2.y - v1.y) / 2) := by field_simp
      have q5 := mul_le_mul_of_nonneg_left q2 (sq_nonneg r)
      have q6 := mul_le_mul_of_nonneg_left q3 (by linarith : 0 ≤ (v2.y - v1.y) / 2)
      rw [q4] at q5
      linarith
    rw [hca, ← harea] at this
    linarith

/-- what an arc and the chord back add to the winding number -/
noncomputable def capW (s : Vertex ℝ × Vertex ℝ) (z : ℝ × ℝ) : ℝ := (segW z s : ℝ) + (segW z (chordBack s) : ℝ)

theorem capW_vertical (v1 v2 : Vertex ℝ) (h : ProperArc v1 v2) (hb : 0 < v1.bulge) (hx : v2.x = v1.x) (hy : v1.y < v2.y) :
    Integrable (capW (v1, v2)) ∧ ∫ z, capW (v1, v2) z = doubleArcArea v1 v2 / 2 := by
  obtain ⟨h1, h2, h3⟩ := cap_vertical v1 v2 h hb hx hy
  have hae : ((cap v1.x v1.y v2.y (arcCenter v1.pos v2.pos v1.bulge).x (arcCenter v1.pos v2.pos v1.bulge).y (arcRadius v1.pos v2.pos v1.bulge)).indicator
      fun _ => (1 : ℝ)) =ᵐ[volume] capW (v1, v2) := by
    filter_upwards [ae_off [chordBack (v1, v2)]] with z hz
    exact (h1 z (hz _ (by simp))).symm
  have hm := cap_measurable v1.x v1.y v2.y (arcCenter v1.pos v2.pos v1.bulge).x (arcCenter v1.pos v2.pos v1.bulge).y (arcRadius v1.pos v2.pos v1.bulge)
  constructor
  · exact ((integrable_indicator_iff hm).mpr (integrableOn_const (by rw [h2]; exact ENNReal.ofReal_ne_top))).congr hae
  · rw [← integral_congr_ae hae, integral_indicator_const _ hm, measureReal_def, h2, ENNReal.toReal_ofReal (by linarith)]
    simp

theorem chordBack_rot (φ : ℝ) (s : Vertex ℝ × Vertex ℝ) : chordBack (rotSeg φ s) = rotSeg φ (chordBack s) := rfl

theorem doubleArcArea_rot (φ : ℝ) (v1 v2 : Vertex ℝ) (hb : v1.bulge ≠ 0) : doubleArcArea (rotVtx φ v1) (rotVtx φ v2) = doubleArcArea v1 v2 := by
  have e : ((rotVtx φ v1).x - (rotVtx φ v2).x) ^ 2 + ((rotVtx φ v1).y - (rotVtx φ v2).y) ^ 2 = (v1.x - v2.x) ^ 2 + (v1.y - v2.y) ^ 2 := by
    have := Real.sin_sq_add_cos_sq φ
    simp only [rotVtx]
    linear_combination ((v1.x - v2.x) ^ 2 + (v1.y - v2.y) ^ 2) * this
  rw [doubleArcArea_eq v1 v2 hb, doubleArcArea_eq (rotVtx φ v1) (rotVtx φ v2) hb, e]
  have e2 : edist (rotVtx φ v1).pos (rotVtx φ v2).pos = edist v1.pos v2.pos := by
    unfold edist
    simp only [Vertex.pos]
    rw [e]
  simp only [arcRadius, e2]
  rfl

/-- The integral of the winding number around an arc, counter clockwise, and the chord back. -/
theorem capW_ccw (v1 v2 : Vertex ℝ) (h : ProperArc v1 v2) (hb : 0 < v1.bulge) :
    Integrable (capW (v1, v2)) ∧ ∫ z, capW (v1, v2) z = doubleArcArea v1 v2 / 2 := by
  have hne : v2.x - v1.x ≠ 0 ∨ v2.y - v1.y ≠ 0 := by
    by_contra hc
    push Not at hc
    apply h.ne
    rw [V2.ext_iff']
    simp only [Vertex.pos]
    constructor <;> linarith [hc.1, hc.2]
  obtain ⟨ρ, hρ, ex, ey⟩ := ang_dir hne
  generalize ang (v2.x - v1.x) (v2.y - v1.y) = θ at ex ey
  set φ := Real.pi / 2 - θ with hφ
  have hc : Real.cos φ = Real.sin θ := Real.cos_pi_div_two_sub θ
  have hs : Real.sin φ = Real.cos θ := Real.sin_pi_div_two_sub θ
  have hsq := Real.sin_sq_add_cos_sq θ
  have hx : (rotVtx φ v2).x = (rotVtx φ v1).x := by
    simp only [rotVtx, hc, hs]
    have : (v2.x - v1.x) * Real.sin θ - (v2.y - v1.y) * Real.cos θ = 0 := by rw [ex, ey]; ring
    linarith
  have hy : (rotVtx φ v1).y < (rotVtx φ v2).y := by
    simp only [rotVtx, hc, hs]
    have : (v2.x - v1.x) * Real.cos θ + (v2.y - v1.y) * Real.sin θ = ρ := by rw [ex, ey]; linear_combination ρ * hsq
    linarith
  have hp : Proper (rotSeg φ (v1, v2)) := proper_rot φ (Or.inr h)
  have hp' : ProperArc (rotVtx φ v1) (rotVtx φ v2) := by
    rcases hp with hl | hp
    · exact absurd hl h.notLine
    · exact hp
  obtain ⟨i, e⟩ := capW_vertical _ _ hp' hb hx hy
  obtain ⟨r1, r2⟩ := rot_integral φ (capW (rotVtx φ v1, rotVtx φ v2))
  have hae : (fun z => capW (rotVtx φ v1, rotVtx φ v2) (rotZ φ z)) =ᵐ[volume] capW (v1, v2) := by
    filter_upwards [ae_off [(v1, v2), chordBack (v1, v2)]] with z hz
    have := segW_sum_rot φ [(v1, v2), chordBack (v1, v2)] (by
      intro s hs
      simp only [List.mem_cons, List.not_mem_nil, or_false] at hs
      rcases hs with rfl | rfl
      · exact Or.inr h
      · exact Or.inl (isLine_flat _ _)) (List.Perm.swap _ _ _) hz
    simp only [List.map_cons, List.map_nil, List.sum_cons, List.sum_nil, add_zero] at this
    unfold capW
    exact_mod_cast this
  refine ⟨(r1.mpr i).congr hae, ?_⟩
  rw [← integral_congr_ae hae, r2, e, doubleArcArea_rot φ v1 v2 hb.ne']

/-- The same for an arc in any direction. -/
theorem capW_integral (v1 v2 : Vertex ℝ) (h : ProperArc v1 v2) :
    Integrable (capW (v1, v2)) ∧ ∫ z, capW (v1, v2) z = doubleArcArea v1 v2 / 2 := by
  have hb := bulge_ne_zero h.notLine
  rcases lt_or_gt_of_ne hb with hneg | hpos
  · have hp : Proper (flipE (v1, v2)) := flip_proper (Or.inr h) 0
    have hp' : ProperArc (flipE (v1, v2)).1 (flipE (v1, v2)).2 := by
      rcases hp with hl | hp
      · exfalso
        apply h.notLine
        unfold IsLine at hl ⊢
        simpa [flipE] using hl
      · exact hp
    obtain ⟨i, e⟩ := capW_ccw _ _ hp' (by simp only [flipE]; linarith)
    have hae : (fun z => -capW ((flipE (v1, v2)).1, (flipE (v1, v2)).2) z) =ᵐ[volume] capW (v1, v2) := by
      filter_upwards [ae_off [(v1, v2), chordBack (v1, v2)]] with z hz
      have h1 := flip_wind (e := (v1, v2)) (Or.inr h) (hz _ (by simp))
      have h2 := flip_wind (e := chordBack (v1, v2)) (Or.inl (isLine_flat _ _)) (hz _ (by simp))
      have h3 : segW z (chordBack (flipE (v1, v2))) = segW z (flipE (chordBack (v1, v2))) := by
        have : chordBack (flipE (v1, v2)) = flipE (chordBack (v1, v2)) := by
          simp [chordBack, flipE]
        rw [this]
      unfold capW
      show -((segW z (flipE (v1, v2)) : ℝ) + (segW z (chordBack (flipE (v1, v2))) : ℝ)) = _
      rw [h3, h1, h2]
      push_cast
      ring
    refine ⟨i.neg.congr hae, ?_⟩
    rw [← integral_congr_ae hae, integral_neg, e]
    have h4 := doubleArcArea_eq v1 v2 hb
    have h5 := doubleArcArea_eq (flipE (v1, v2)).1 (flipE (v1, v2)).2 (by simp only [flipE]; exact neg_ne_zero.mpr hb)
    rw [h4, h5]
    simp only [flipE, Vertex.pos]
    rw [arcRadius_swap, Real.arctan_neg]
    field_simp
    ring
  · exact capW_ccw v1 v2 h hpos

/-- **The integral of the winding number around a closed list of lines and arcs** is given by the terms of the area. -/
theorem segs_integral (L : List (Vertex ℝ × Vertex ℝ)) (hp : ∀ s ∈ L, Proper s) (hc : (L.map fun s => s.2.pos).Perm (L.map fun s => s.1.pos)) :
    Integrable (fun z => (L.map fun s => (segW z s : ℝ)).sum) ∧ ∫ z, (L.map fun s => (segW z s : ℝ)).sum = (L.map areaTerm).sum / 2 := by
  have hl := lines_integral (L.map chordOn) (by
    intro s hs
    obtain ⟨e, -, rfl⟩ := List.mem_map.mp hs
    exact isLine_flat _ _) (by rw [List.map_map, List.map_map]; exact hc)
  have hcap : ∀ s ∈ L, Integrable (fun z => (segW z s : ℝ) - (segW z (chordOn s) : ℝ)) ∧
      ∫ z, ((segW z s : ℝ) - (segW z (chordOn s) : ℝ)) = if s.1.bulgeIsZero = true then 0 else doubleArcArea s.1 s.2 / 2 := by
    intro s hs
    rcases hp s hs with h | h
    · have h1 : ∀ z, (segW z s : ℝ) - (segW z (chordOn s) : ℝ) = 0 := by
        intro z
        have : segW z s = segW z (chordOn s) := by
          unfold segW segWinding
          rw [if_pos (bulgeIsZero_true h), if_pos (show (chordOn s).1.bulgeIsZero = true from bulgeIsZero_true (isLine_flat _ _))]
          rfl
        rw [this, sub_self]
      simp only [h1]
      rw [if_pos (bulgeIsZero_true h)]
      simp
    · obtain ⟨i, e⟩ := capW_integral s.1 s.2 h
      have hae : capW (s.1, s.2) =ᵐ[volume] fun z => (segW z s : ℝ) - (segW z (chordOn s) : ℝ) := by
        filter_upwards [ae_off [chordOn s]] with z hz
        have h2 := flip_wind (e := chordOn s) (Or.inl (isLine_flat _ _)) (hz _ (by simp))
        have h3 : flipE (chordOn s) = chordBack s := by simp [chordBack, chordOn, flipE]
        rw [h3] at h2
        unfold capW
        show (segW z s : ℝ) + (segW z (chordBack s) : ℝ) = _
        rw [h2]
        push_cast
        ring
      refine ⟨i.congr hae, ?_⟩
      rw [← integral_congr_ae hae, e, if_neg (by simp [bulgeIsZero_false h.notLine])]
  have hcs := sum_integral (fun s z => (segW z s : ℝ) - (segW z (chordOn s) : ℝ)) _ L hcap
  have hsum : ∀ z, (L.map fun s => (segW z s : ℝ)).sum = ((L.map chordOn).map fun s => (segW z s : ℝ)).sum +
      (L.map fun s => (segW z s : ℝ) - (segW z (chordOn s) : ℝ)).sum := by
    intro z
    rw [map_sum_sub, List.map_map, Function.comp_def]
    ring
  simp only [hsum]
  refine ⟨hl.1.add hcs.1, ?_⟩
  rw [integral_add hl.1 hcs.1, hl.2, hcs.2]
  clear hl hcap hcs hsum hp hc
  induction L with
  | nil => simp
  | cons s L ih =>
    simp only [List.map_cons, List.sum_cons] at ih ⊢
    have : areaTerm s / 2 = ((chordOn s).1.x * (chordOn s).2.y - (chordOn s).1.y * (chordOn s).2.x) / 2 +
        if s.1.bulgeIsZero = true then 0 else doubleArcArea s.1 s.2 / 2 := by
      unfold areaTerm chordOn
      split <;> ring
    rw [add_div, ← ih, this]
    ring

end Cavc
