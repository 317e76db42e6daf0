import Mathlib.MeasureTheory.Measure.Lebesgue.Integral
import Mathlib.MeasureTheory.Integral.Prod
import Mathlib.MeasureTheory.Function.Jacobian
import Verif.Lemmas.Balance
import Verif.Props.Area

/-! # The integral of the winding number around closed lists of lines -/

namespace Cavc
open MeasureTheory Set Pline

instance planeHaar : Measure.IsAddHaarMeasure (volume : Measure (ℝ × ℝ)) := Measure.prod.instIsAddHaarMeasure _ _

/-! ### the points of a segment are negligible -/

theorem segCurve_deriv (s : Vertex ℝ × Vertex ℝ) (t : ℝ) : ∃ d : ℝ × ℝ, HasDerivAt (fun t => ((segCurve s.1 s.2 t).x, (segCurve s.1 s.2 t).y)) d t := by
  by_cases h : IsLine s.1
  · have e : segCurve s.1 s.2 = linePoint s.1.pos s.2.pos := funext (segCurve_line h)
    rw [e]
    exact ⟨_, (linePoint_hasDerivAt s.1.pos s.2.pos t).1.prodMk (linePoint_hasDerivAt s.1.pos s.2.pos t).2⟩
  · have e : segCurve s.1 s.2 = arcPoint s.1.pos s.2.pos s.1.bulge := funext (segCurve_arc h)
    rw [e]
    exact ⟨_, (arcPoint_hasDerivAt s.1.pos s.2.pos s.1.bulge t).1.prodMk (arcPoint_hasDerivAt s.1.pos s.2.pos s.1.bulge t).2⟩

theorem segTrace_null (s : Vertex ℝ × Vertex ℝ) : volume (segTrace s) = 0 := by
  choose d hd using segCurve_deriv s
  set f : ℝ × ℝ → ℝ × ℝ := fun z => ((segCurve s.1 s.2 z.1).x, (segCurve s.1 s.2 z.1).y) with hf
  have h1 : ∀ z : ℝ × ℝ, HasFDerivAt f ((ContinuousLinearMap.toSpanSingleton ℝ (d z.1)).comp (ContinuousLinearMap.fst ℝ ℝ ℝ)) z := by
    intro z
    exact (hd z.1).hasFDerivAt.comp z (hasFDerivAt_fst (𝕜 := ℝ) (p := z))
  have h2 : ∀ z : ℝ × ℝ, ((ContinuousLinearMap.toSpanSingleton ℝ (d z.1)).comp (ContinuousLinearMap.fst ℝ ℝ ℝ)).det = 0 := by
    intro z
    refine LinearMap.det_eq_zero_iff_ker_ne_bot.mpr fun hbot => ?_
    have : ((0 : ℝ), (1 : ℝ)) = (0, 0) := LinearMap.ker_eq_bot.mp hbot (by simp)
    simp at this
  have h3 := addHaar_image_eq_zero_of_det_fderivWithin_eq_zero (volume : Measure (ℝ × ℝ)) (s := univ) (fun z _ => (h1 z).hasFDerivWithinAt) (fun z _ => h2 z)
  refine measure_mono_null ?_ h3
  rw [segTrace_eq]
  rintro _ ⟨t, -, rfl⟩
  exact ⟨(t, 0), trivial, rfl⟩

/-- Almost no point is on one of the segments. -/
theorem ae_off (L : List (Vertex ℝ × Vertex ℝ)) : ∀ᵐ z : ℝ × ℝ, ∀ s ∈ L, z ∉ segTrace s := by
  induction L with
  | nil => simp
  | cons s L ih =>
    have h : ∀ᵐ z : ℝ × ℝ, z ∉ segTrace s := measure_eq_zero_iff_ae_notMem.mp (segTrace_null s)
    filter_upwards [ih, h] with z h1 h2
    intro e he
    rcases List.mem_cons.mp he with rfl | he
    · exact h2
    · exact h1 e he

/-! ### lines -/

/-- where a line passes a height -/
noncomputable def crossX (s : Vertex ℝ × Vertex ℝ) (y : ℝ) : ℝ := s.1.x + (y - s.1.y) * ((s.2.x - s.1.x) / (s.2.y - s.1.y))

/-- 1 if a segment passes the height upwards, -1 if downwards -/
noncomputable def passY (s : Vertex ℝ × Vertex ℝ) (y : ℝ) : ℝ := (if y < s.2.y then 1 else 0) - (if y < s.1.y then 1 else 0)

/-- the winding number of a line, as a product -/
noncomputable def lineW (s : Vertex ℝ × Vertex ℝ) (z : ℝ × ℝ) : ℝ := passY s z.2 * if z.1 < crossX s z.2 then 1 else 0

theorem crossX_on (s : Vertex ℝ × Vertex ℝ) (h : IsLine s.1) {y : ℝ} (hne : s.1.y ≠ s.2.y) (h1 : min s.1.y s.2.y ≤ y) (h2 : y ≤ max s.1.y s.2.y) :
    (crossX s y, y) ∈ segTrace s := by
  have hd : s.2.y - s.1.y ≠ 0 := fun h => hne (by linarith)
  refine ⟨(y - s.1.y) / (s.2.y - s.1.y), ?_, ?_, ?_⟩
  · rcases lt_or_gt_of_ne hne with h | h
    · rw [min_eq_left h.le] at h1
      exact div_nonneg (by linarith) (by linarith)
    · rw [max_eq_left h.le] at h2
      exact div_nonneg_of_nonpos (by linarith) (by linarith)
  · rcases lt_or_gt_of_ne hne with h | h
    · rw [max_eq_right h.le] at h2
      rw [div_le_one (by linarith)]; linarith
    · rw [min_eq_right h.le] at h1
      rw [div_le_one_of_neg (by linarith)]; linarith
  · rw [segCurve_line h, V2.ext_iff']
    simp only [linePoint, crossX, Vertex.pos]
    constructor
    · field_simp
    · field_simp; ring

theorem segW_line (s : Vertex ℝ × Vertex ℝ) (h : IsLine s.1) {z : ℝ × ℝ} (hz : z ∉ segTrace s) : (segW z s : ℝ) = lineW s z := by
  have hzero : s.1.bulgeIsZero = true := bulgeIsZero_true h
  have hon : s.1.y ≠ s.2.y → min s.1.y s.2.y ≤ z.2 → z.2 ≤ max s.1.y s.2.y → z.1 ≠ crossX s z.2 := by
    intro h1 h2 h3 he
    apply hz
    have := crossX_on s h h1 h2 h3
    rw [← he] at this
    exact this
  have key : s.1.y ≠ s.2.y → (s.1.x - z.1) * (s.2.y - z.2) - (s.2.x - z.1) * (s.1.y - z.2) = (crossX s z.2 - z.1) * (s.2.y - s.1.y) := by
    intro hne
    have hd : s.2.y - s.1.y ≠ 0 := fun h => hne (by linarith)
    unfold crossX
    field_simp
    ring
  unfold segW segWinding
  rw [if_pos hzero, lineWinding_eq]
  unfold lineW passY
  rcases le_or_gt s.1.y z.2 with h1 | h1
  · rw [if_pos (by simpa using h1), if_neg (not_lt.mpr h1)]
    rcases le_or_gt s.2.y z.2 with h2 | h2
    · rw [if_neg (fun hc => by have := hc.1; simp at this; linarith), if_neg (not_lt.mpr h2)]
      simp
    · rw [if_pos h2]
      have hne : s.1.y ≠ s.2.y := by linarith
      simp only [key hne]
      by_cases hx : z.1 < crossX s z.2
      · rw [if_pos ⟨by simpa using h2, mul_pos (by linarith) (by linarith)⟩, if_pos hx]
        simp
      · rw [if_neg (fun hc => by have := (mul_pos_iff_of_pos_right (by linarith)).mp hc.2; exact hx (by linarith)), if_neg hx]
        simp
  · rw [if_neg (by simpa using h1), if_pos h1]
    rcases le_or_gt s.2.y z.2 with h2 | h2
    · rw [if_neg (not_lt.mpr h2)]
      have hne : s.1.y ≠ s.2.y := by linarith
      simp only [key hne]
      have h3 := hon hne (by rw [min_eq_right (by linarith)]; exact h2) (by rw [max_eq_left (by linarith)]; exact h1.le)
      by_cases hx : z.1 < crossX s z.2
      · rw [if_pos ⟨by simpa using h2, not_lt.mpr (mul_nonpos_of_nonneg_of_nonpos (by linarith) (by linarith))⟩, if_pos hx]
        simp
      · have hx' : crossX s z.2 < z.1 := lt_of_le_of_ne (not_lt.mp hx) (Ne.symm h3)
        rw [if_neg (fun hc => hc.2 (mul_pos_of_neg_of_neg (by linarith) (by linarith))), if_neg hx]
        simp
    · rw [if_neg (fun hc => by have := hc.1; simp at this; linarith), if_pos h2]
      simp

/-- the points left of a line, right of `-M` -/
def leftOf (s : Vertex ℝ × Vertex ℝ) (M : ℝ) : Set (ℝ × ℝ) := {z | z.2 ∈ Ico (min s.1.y s.2.y) (max s.1.y s.2.y) ∧ z.1 ∈ Ioo (-M) (crossX s z.2)}

theorem crossX_ge {s : Vertex ℝ × Vertex ℝ} {M : ℝ} (h1 : -M < s.1.x) (h2 : -M < s.2.x) {y : ℝ} (hy1 : min s.1.y s.2.y ≤ y) (hy2 : y < max s.1.y s.2.y) :
    -M < crossX s y := by
  have hne : s.1.y ≠ s.2.y := by
    intro h; rw [h, min_self] at hy1; rw [h, max_self] at hy2; linarith
  obtain ⟨t, t0, t1, e⟩ : ∃ t, 0 ≤ t ∧ t ≤ 1 ∧ crossX s y = s.1.x + t * (s.2.x - s.1.x) := by
    refine ⟨(y - s.1.y) / (s.2.y - s.1.y), ?_, ?_, by unfold crossX; ring⟩
    · rcases lt_or_gt_of_ne hne with h | h
      · rw [min_eq_left h.le] at hy1
        exact div_nonneg (by linarith) (by linarith)
      · rw [max_eq_left h.le] at hy2
        exact div_nonneg_of_nonpos (by linarith) (by linarith)
    · rcases lt_or_gt_of_ne hne with h | h
      · rw [max_eq_right h.le] at hy2
        rw [div_le_one (by linarith)]; linarith
      · rw [min_eq_right h.le] at hy1
        rw [div_le_one_of_neg (by linarith)]; linarith
  rw [e]
  rcases eq_or_lt_of_le t0 with h | h
  · rw [← h]; linarith
  · nlinarith [mul_nonneg (sub_nonneg.mpr t1) (sub_nonneg.mpr h1.le), mul_pos h (sub_pos.mpr h2)]

theorem crossX_continuous (s : Vertex ℝ × Vertex ℝ) : Continuous (crossX s) := by
  unfold crossX; fun_prop

theorem leftOf_eq (s : Vertex ℝ × Vertex ℝ) (M : ℝ) :
    leftOf s M = Prod.swap ⁻¹' regionBetween (fun _ => -M) (crossX s) (Ico (min s.1.y s.2.y) (max s.1.y s.2.y)) := rfl

theorem leftOf_measurable (s : Vertex ℝ × Vertex ℝ) (M : ℝ) : MeasurableSet (leftOf s M) := by
  rw [leftOf_eq]
  exact measurable_swap (measurableSet_regionBetween measurable_const (crossX_continuous s).measurable measurableSet_Ico)

theorem leftOf_volume {s : Vertex ℝ × Vertex ℝ} {M : ℝ} (h1 : -M < s.1.x) (h2 : -M < s.2.x) :
    volume (leftOf s M) = ENNReal.ofReal (|s.2.y - s.1.y| * ((s.1.x + s.2.x) / 2 + M)) := by
  rw [leftOf_eq, show (volume : Measure (ℝ × ℝ)) = (volume : Measure ℝ).prod volume from rfl, (Measure.measurePreserving_swap (μ := (volume : Measure ℝ)) (ν := (volume : Measure ℝ))).measure_preimage
    (measurableSet_regionBetween measurable_const (crossX_continuous s).measurable measurableSet_Ico).nullMeasurableSet]
  have hle : min s.1.y s.2.y ≤ max s.1.y s.2.y := min_le_max
  have hi : IntegrableOn (crossX s) (Ico (min s.1.y s.2.y) (max s.1.y s.2.y)) :=
    ((crossX_continuous s).integrableOn_Icc).mono_set Ico_subset_Icc_self
  rw [volume_regionBetween_eq_integral (by simp) hi measurableSet_Ico (fun y hy => (crossX_ge h1 h2 hy.1 hy.2).le)]
  congr 1
  rw [integral_Ico_eq_integral_Ioc, ← intervalIntegral.integral_of_le hle]
  have hF : ∀ y ∈ uIcc (min s.1.y s.2.y) (max s.1.y s.2.y), HasDerivAt (fun y => (s.1.x + M) * (y - s.1.y) + (y - s.1.y) ^ 2 / 2 * ((s.2.x - s.1.x) / (s.2.y - s.1.y)))
      ((crossX s - fun _ : ℝ => -M) y) y := by
    intro y _
    have h1 : HasDerivAt (fun y : ℝ => y - s.1.y) 1 y := (hasDerivAt_id y).sub_const _
    refine ((h1.const_mul (s.1.x + M)).add (((h1.pow 2).div_const 2).mul_const _)).congr_deriv ?_
    simp only [Pi.sub_apply, crossX]
    push_cast
    ring
  have hc : Continuous (crossX s - fun _ : ℝ => -M) := (crossX_continuous s).sub continuous_const
  rw [intervalIntegral.integral_eq_sub_of_hasDerivAt hF (hc.intervalIntegrable _ _)]
  rcases lt_trichotomy s.1.y s.2.y with h | h | h
  · rw [min_eq_left h.le, max_eq_right h.le, abs_of_pos (by linarith)]
    have : s.2.y - s.1.y ≠ 0 := by linarith
    field_simp
    ring
  · rw [h]; simp
  · rw [min_eq_right h.le, max_eq_left h.le, abs_of_neg (by linarith)]
    have : s.2.y - s.1.y ≠ 0 := by linarith
    field_simp
    ring

theorem passY_eq (s : Vertex ℝ × Vertex ℝ) (y : ℝ) :
    passY s y = if y ∈ Ico (min s.1.y s.2.y) (max s.1.y s.2.y) then (if s.1.y < s.2.y then 1 else -1) else 0 := by
  unfold passY
  rcases lt_trichotomy s.1.y s.2.y with h | h | h
  · rw [min_eq_left h.le, max_eq_right h.le]
    by_cases h1 : y < s.1.y
    · rw [if_pos h1, if_pos (by linarith), if_neg (fun hc => by linarith [hc.1])]; ring
    · by_cases h2 : y < s.2.y
      · rw [if_neg h1, if_pos h2, if_pos ⟨not_lt.mp h1, h2⟩, if_pos h]; ring
      · rw [if_neg h1, if_neg h2, if_neg (fun hc => h2 hc.2)]; ring
  · simp [h]
  · rw [min_eq_right h.le, max_eq_left h.le]
    by_cases h1 : y < s.2.y
    · rw [if_pos h1, if_pos (by linarith), if_neg (fun hc => by linarith [hc.1])]; ring
    · by_cases h2 : y < s.1.y
      · rw [if_neg h1, if_pos h2, if_pos ⟨not_lt.mp h1, h2⟩, if_neg (by linarith)]; ring
      · rw [if_neg h1, if_neg h2, if_neg (fun hc => h2 hc.2)]; ring

/-- the winding number of a line right of `-M` -/
noncomputable def lineWR (M : ℝ) (s : Vertex ℝ × Vertex ℝ) (z : ℝ × ℝ) : ℝ := if -M < z.1 then lineW s z else 0

theorem lineWR_eq (M : ℝ) (s : Vertex ℝ × Vertex ℝ) : lineWR M s = (leftOf s M).indicator fun _ => if s.1.y < s.2.y then (1 : ℝ) else -1 := by
  funext z
  unfold lineWR lineW
  rw [passY_eq]
  by_cases hM : -M < z.1
  · by_cases hy : z.2 ∈ Ico (min s.1.y s.2.y) (max s.1.y s.2.y)
    · by_cases hx : z.1 < crossX s z.2
      · rw [indicator_of_mem (show z ∈ leftOf s M from ⟨hy, hM, hx⟩)]
        simp [hM, hy, hx]
      · rw [indicator_of_notMem (fun hc => hx hc.2.2)]
        simp [hx]
    · rw [indicator_of_notMem (fun hc => hy hc.1)]
      simp [hy]
  · rw [indicator_of_notMem (fun hc => hM hc.2.1), if_neg hM]

theorem lineWR_integral {s : Vertex ℝ × Vertex ℝ} {M : ℝ} (h1 : -M < s.1.x) (h2 : -M < s.2.x) :
    Integrable (lineWR M s) ∧ ∫ z, lineWR M s z = (s.2.y - s.1.y) * ((s.1.x + s.2.x) / 2 + M) := by
  have hv := leftOf_volume h1 h2
  have hfin : volume (leftOf s M) ≠ ⊤ := by rw [hv]; exact ENNReal.ofReal_ne_top
  have hr : volume.real (leftOf s M) = |s.2.y - s.1.y| * ((s.1.x + s.2.x) / 2 + M) := by
    rw [measureReal_def, hv, ENNReal.toReal_ofReal (mul_nonneg (abs_nonneg _) (by linarith))]
  rw [lineWR_eq]
  constructor
  · exact (integrable_indicator_iff (leftOf_measurable s M)).mpr (integrableOn_const hfin)
  · rw [integral_indicator_const _ (leftOf_measurable s M), hr, smul_eq_mul]
    rcases lt_or_ge s.1.y s.2.y with h | h
    · rw [if_pos h, abs_of_pos (by linarith)]; ring
    · rw [if_neg (not_lt.mpr h), abs_of_nonpos (by linarith)]; ring

theorem sum_integral {α : Type} (f : α → ℝ × ℝ → ℝ) (c : α → ℝ) : ∀ L : List α, (∀ s ∈ L, Integrable (f s) ∧ ∫ z, f s z = c s) →
    Integrable (fun z => (L.map fun s => f s z).sum) ∧ ∫ z, (L.map fun s => f s z).sum = (L.map c).sum
  | [], _ => by simp
  | s :: L, h => by
    obtain ⟨i1, e1⟩ := h s (by simp)
    obtain ⟨i2, e2⟩ := sum_integral f c L (fun s hs => h s (by simp [hs]))
    constructor
    · simp only [List.map_cons, List.sum_cons]
      exact i1.add i2
    · simp only [List.map_cons, List.sum_cons]
      rw [integral_add i1 i2, e1, e2]

theorem map_sum_sub {α : Type} (f g : α → ℝ) : ∀ L : List α, (L.map fun s => f s - g s).sum = (L.map f).sum - (L.map g).sum
  | [] => by simp
  | s :: L => by simp only [List.map_cons, List.sum_cons, map_sum_sub f g L]; ring

/-- the ends of a closed list cancel -/
theorem ends_cancel {L : List (Vertex ℝ × Vertex ℝ)} (hc : (L.map fun s => s.2.pos).Perm (L.map fun s => s.1.pos)) (f : V2 ℝ → ℝ) :
    (L.map fun s => f s.2.pos - f s.1.pos).sum = 0 := by
  rw [map_sum_sub]
  have := (hc.map f).sum_eq
  simp only [List.map_map, Function.comp_def] at this
  rw [this, sub_self]

/-- The integral of the winding number around a closed list of lines is given by the shoelace formula. -/
theorem lines_integral (L : List (Vertex ℝ × Vertex ℝ)) (hl : ∀ s ∈ L, IsLine s.1) (hc : (L.map fun s => s.2.pos).Perm (L.map fun s => s.1.pos)) :
    Integrable (fun z => (L.map fun s => (segW z s : ℝ)).sum) ∧
      ∫ z, (L.map fun s => (segW z s : ℝ)).sum = (L.map fun s => (s.1.x * s.2.y - s.1.y * s.2.x) / 2).sum := by
  obtain ⟨M, hM⟩ : ∃ M : ℝ, ∀ s ∈ L, -M < s.1.x ∧ -M < s.2.x := by
    clear hl hc
    induction L with
    | nil => exact ⟨0, by simp⟩
    | cons s L ih =>
      obtain ⟨M, hM⟩ := ih
      refine ⟨max M (max (-s.1.x + 1) (-s.2.x + 1)), fun e he => ?_⟩
      have m1 := le_max_left M (max (-s.1.x + 1) (-s.2.x + 1))
      have m2 := le_trans (le_max_left (-s.1.x + 1) (-s.2.x + 1)) (le_max_right M _)
      have m3 := le_trans (le_max_right (-s.1.x + 1) (-s.2.x + 1)) (le_max_right M _)
      rcases List.mem_cons.mp he with rfl | he
      · constructor <;> linarith
      · obtain ⟨a, b⟩ := hM e he
        constructor <;> linarith
  obtain ⟨i, e⟩ := sum_integral (lineWR M) (fun s => (s.2.y - s.1.y) * ((s.1.x + s.2.x) / 2 + M)) L (fun s hs => lineWR_integral (hM s hs).1 (hM s hs).2)
  have hae : (fun z => (L.map fun s => lineWR M s z).sum) =ᵐ[volume] fun z => (L.map fun s => (segW z s : ℝ)).sum := by
    filter_upwards [ae_off L] with z hz
    have h1 : (L.map fun s => (segW z s : ℝ)) = L.map fun s => lineW s z :=
      List.map_congr_left fun s hs => segW_line s (hl s hs) (hz s hs)
    rw [h1]
    by_cases hx : -M < z.1
    · congr 1
      exact List.map_congr_left fun s _ => by simp [lineWR, hx]
    · have h2 : (L.map fun s => lineWR M s z) = L.map fun _ => (0 : ℝ) := List.map_congr_left fun s _ => by simp [lineWR, hx]
      have h3 : (L.map fun s => lineW s z) = L.map fun s => (if z.2 < s.2.pos.y then (1 : ℝ) else 0) - (if z.2 < s.1.pos.y then (1 : ℝ) else 0) := by
        refine List.map_congr_left fun s hs => ?_
        unfold lineW
        by_cases hp : z.2 ∈ Ico (min s.1.y s.2.y) (max s.1.y s.2.y)
        · have := crossX_ge (hM s hs).1 (hM s hs).2 hp.1 hp.2
          rw [if_pos (by linarith [not_lt.mp hx]), mul_one]; rfl
        · have : passY s z.2 = 0 := by rw [passY_eq, if_neg hp]
          rw [this, zero_mul]; exact this.symm
      rw [h2, h3, ends_cancel hc fun u => if z.2 < u.y then (1 : ℝ) else 0]
      simp
  refine ⟨i.congr hae, ?_⟩
  rw [← integral_congr_ae hae, e]
  have k := ends_cancel hc fun u => u.x * u.y / 2 + M * u.y
  have k2 := map_sum_sub (fun s : Vertex ℝ × Vertex ℝ => (s.2.y - s.1.y) * ((s.1.x + s.2.x) / 2 + M)) (fun s => (s.1.x * s.2.y - s.1.y * s.2.x) / 2) L
  have k3 : (L.map fun s => (s.2.y - s.1.y) * ((s.1.x + s.2.x) / 2 + M) - (s.1.x * s.2.y - s.1.y * s.2.x) / 2) =
      L.map fun s => (s.2.pos.x * s.2.pos.y / 2 + M * s.2.pos.y) - (s.1.pos.x * s.1.pos.y / 2 + M * s.1.pos.y) :=
    List.map_congr_left fun s _ => by simp only [Vertex.pos]; ring
  rw [k3] at k2
  have := k2.symm.trans k
  linarith

end Cavc
