import Verif.Spec.Curve
import Verif.Props.Angles

/-! Lemmas about arcs. -/

namespace Cavc
open Scalar RealScalar

theorem cos_two_arctan (b : ℝ) : Real.cos (2 * Real.arctan b) = (1 - b ^ 2) / (1 + b ^ 2) := by
  rw [Real.cos_two_mul, Real.cos_sq_arctan]
  have : 1 + b ^ 2 ≠ 0 := by positivity
  field_simp; ring

theorem sin_two_arctan (b : ℝ) : Real.sin (2 * Real.arctan b) = 2 * b / (1 + b ^ 2) := by
  rw [Real.sin_two_mul]
  have h : Real.sin (Real.arctan b) = b * Real.cos (Real.arctan b) := by
    have := Real.tan_arctan b
    rw [Real.tan_eq_sin_div_cos, div_eq_iff (Real.cos_arctan_pos b).ne'] at this
    exact this
  rw [h]
  have h2 := Real.cos_sq_arctan b
  have : 2 * (b * Real.cos (Real.arctan b)) * Real.cos (Real.arctan b)
      = 2 * b * Real.cos (Real.arctan b) ^ 2 := by ring
  rw [this, h2]; ring

theorem cos_four_arctan (b : ℝ) :
    Real.cos (4 * Real.arctan b) = ((1 - b ^ 2) ^ 2 - 4 * b ^ 2) / (1 + b ^ 2) ^ 2 := by
  rw [show 4 * Real.arctan b = 2 * (2 * Real.arctan b) by ring, Real.cos_two_mul, cos_two_arctan]
  have : 1 + b ^ 2 ≠ 0 := by positivity
  field_simp; ring

theorem sin_four_arctan (b : ℝ) :
    Real.sin (4 * Real.arctan b) = 4 * b * (1 - b ^ 2) / (1 + b ^ 2) ^ 2 := by
  rw [show 4 * Real.arctan b = 2 * (2 * Real.arctan b) by ring, Real.sin_two_mul, cos_two_arctan,
    sin_two_arctan]
  have : 1 + b ^ 2 ≠ 0 := by positivity
  field_simp; ring

@[simp] theorem arcPoint_zero (p q : V2 ℝ) (b : ℝ) : arcPoint p q b 0 = p := by
  simp [arcPoint, rotV]

theorem arcPoint_one (p q : V2 ℝ) (b : ℝ) (hb : b ≠ 0) : arcPoint p q b 1 = q := by
  have h1 : 1 + b ^ 2 ≠ 0 := by positivity
  rw [V2.ext_iff']
  simp only [arcPoint, rotV, one_mul, cos_four_arctan, sin_four_arctan, arcCenter]
  constructor
  · field_simp; ring
  · field_simp; ring

theorem edist_pos {p q : V2 ℝ} (h : p ≠ q) : 0 < edist p q := by
  unfold edist
  apply Real.sqrt_pos.mpr
  by_contra hc
  push Not at hc
  apply h
  rw [V2.ext_iff']
  constructor
  · nlinarith [sq_nonneg (p.x - q.x), sq_nonneg (p.y - q.y)]
  · nlinarith [sq_nonneg (p.x - q.x), sq_nonneg (p.y - q.y)]

theorem edist_nonneg (p q : V2 ℝ) : 0 ≤ edist p q := Real.sqrt_nonneg _

theorem edist_sq (p q : V2 ℝ) : edist p q ^ 2 = (p.x - q.x) ^ 2 + (p.y - q.y) ^ 2 := by
  unfold edist; rw [Real.sq_sqrt (by positivity)]

theorem edist_comm (p q : V2 ℝ) : edist p q = edist q p := by
  unfold edist; congr 1; ring

theorem edist_eq_of_sq {p q : V2 ℝ} {r : ℝ} (hr : 0 ≤ r)
    (h : (p.x - q.x) ^ 2 + (p.y - q.y) ^ 2 = r ^ 2) : edist p q = r := by
  unfold edist; rw [h, Real.sqrt_sq hr]

theorem arcRadius_nonneg (p q : V2 ℝ) (b : ℝ) : 0 ≤ arcRadius p q b := by
  have := edist_nonneg p q
  unfold arcRadius; positivity

theorem arcRadius_pos {p q : V2 ℝ} {b : ℝ} (h : p ≠ q) (hb : b ≠ 0) : 0 < arcRadius p q b := by
  have := edist_pos h
  have := abs_pos.mpr hb
  unfold arcRadius; positivity

theorem arcRadius_sq (p q : V2 ℝ) (b : ℝ) :
    arcRadius p q b ^ 2 = ((p.x - q.x) ^ 2 + (p.y - q.y) ^ 2) * (1 + b ^ 2) ^ 2 / (16 * b ^ 2) := by
  unfold arcRadius
  rw [div_pow, mul_pow, mul_pow, edist_sq, sq_abs]; norm_num

theorem start_dist_sq (p q : V2 ℝ) (b : ℝ) (hb : b ≠ 0) :
    (p.x - (arcCenter p q b).x) ^ 2 + (p.y - (arcCenter p q b).y) ^ 2 = arcRadius p q b ^ 2 := by
  rw [arcRadius_sq]
  simp only [arcCenter]
  field_simp; ring

/-- Every arc point is at the distance of the radius from the center. -/
theorem arcPoint_dist_sq (p q : V2 ℝ) (b t : ℝ) (hb : b ≠ 0) :
    ((arcPoint p q b t).x - (arcCenter p q b).x) ^ 2
      + ((arcPoint p q b t).y - (arcCenter p q b).y) ^ 2 = arcRadius p q b ^ 2 := by
  rw [← start_dist_sq p q b hb]
  simp only [arcPoint, rotV]
  have := Real.sin_sq_add_cos_sq (t * (4 * Real.arctan b))
  set s := Real.sin (t * (4 * Real.arctan b))
  set c := Real.cos (t * (4 * Real.arctan b))
  linear_combination ((p.x - (arcCenter p q b).x) ^ 2 + (p.y - (arcCenter p q b).y) ^ 2) * this

theorem arcPoint_edist (p q : V2 ℝ) (b t : ℝ) (hb : b ≠ 0) :
    edist (arcPoint p q b t) (arcCenter p q b) = arcRadius p q b :=
  edist_eq_of_sq (arcRadius_nonneg p q b) (arcPoint_dist_sq p q b t hb)

/-- The arc travelled backwards has the same circle. -/
theorem arcCenter_swap (p q : V2 ℝ) (b : ℝ) (hb : b ≠ 0) : arcCenter q p (-b) = arcCenter p q b := by
  rw [V2.ext_iff']
  simp only [arcCenter]
  constructor
  · field_simp; ring
  · field_simp; ring

theorem arcRadius_swap (p q : V2 ℝ) (b : ℝ) : arcRadius q p (-b) = arcRadius p q b := by
  unfold arcRadius; rw [edist_comm, abs_neg, neg_sq]

theorem arcPoint_swap (p q : V2 ℝ) (b t : ℝ) (hb : b ≠ 0) :
    arcPoint q p (-b) t = arcPoint p q b (1 - t) := by
  have h1 := arcPoint_one p q b hb
  have hc := arcCenter_swap p q b hb
  rw [V2.ext_iff'] at h1 ⊢
  simp only [arcPoint, rotV, one_mul, hc, Real.arctan_neg] at h1 ⊢
  rw [← h1.1, ← h1.2]
  simp only [show t * (4 * -Real.arctan b) = -(t * (4 * Real.arctan b)) by ring, Real.cos_neg,
    Real.sin_neg, show (1 - t) * (4 * Real.arctan b) = 4 * Real.arctan b - t * (4 * Real.arctan b)
      by ring, Real.cos_sub, Real.sin_sub]
  constructor <;> ring

/-- The code's radius and center are those of the specification. -/
theorem segArcRadiusAndCenter_eq (v1 v2 : Vertex ℝ) (hb : v1.bulge ≠ 0) (hne : v1.pos ≠ v2.pos) :
    segArcRadiusAndCenter v1 v2
      = (arcRadius v1.pos v2.pos v1.bulge, arcCenter v1.pos v2.pos v1.bulge) := by
  have hL := edist_pos hne
  have hlen : (v2.pos - v1.pos).length = edist v1.pos v2.pos := by
    rw [V2.length_eq, edist]; congr 1; simp; ring
  have habs := abs_pos.mpr hb
  have hsq := sq_abs v1.bulge
  unfold segArcRadiusAndCenter
  simp only [hlen, abs_eq, two_eq, four_eq, Vertex.bulgeIsNeg_eq, V2.sub_x, V2.sub_y,
    Vertex.pos_x, Vertex.pos_y]
  set L := edist v1.pos v2.pos
  have e1 : L * (|v1.bulge| * |v1.bulge| + 1) / (4 * |v1.bulge|) = arcRadius v1.pos v2.pos v1.bulge := by
    unfold arcRadius; rw [← sq_abs v1.bulge]; ring
  refine Prod.ext e1 ?_
  rw [V2.ext_iff']
  simp only [arcCenter, Vertex.pos_x, Vertex.pos_y]
  rcases lt_or_gt_of_ne hb with h | h
  · have ha : |v1.bulge| = -v1.bulge := abs_of_neg h
    simp only [h, decide_true, if_true, ha]
    constructor
    · field_simp; ring
    · field_simp; ring
  · have ha : |v1.bulge| = v1.bulge := abs_of_pos h
    simp only [not_lt.mpr h.le, decide_false, Bool.false_eq_true, if_false, ha]
    constructor
    · field_simp; ring
    · field_simp; ring

end Cavc
