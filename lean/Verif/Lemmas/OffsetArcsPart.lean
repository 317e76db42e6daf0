import Verif.Spec.OffsetArcs
import Verif.Lemmas.OffsetStraight
import Verif.Props.Split

/-! # Parts of arcs, and the bulges the joins of the raw offset compute for them -/

set_option linter.unusedVariables false

namespace Cavc
open RealScalar Pline

theorem rotV_add (α β : ℝ) (v : V2 ℝ) : rotV (α + β) v = rotV β (rotV α v) := by
  rw [V2.ext_iff']
  simp only [rotV, Real.cos_add, Real.sin_add]
  constructor <;> ring

theorem rotV_eta (v : V2 ℝ) : (⟨v.x, v.y⟩ : V2 ℝ) = v := rfl

theorem arcPoint_rot (p q : V2 ℝ) (b s t : ℝ) :
    (⟨(arcPoint p q b t).x - (arcCenter p q b).x, (arcPoint p q b t).y - (arcCenter p q b).y⟩ : V2 ℝ) =
      rotV ((t - s) * (4 * Real.arctan b)) ⟨(arcPoint p q b s).x - (arcCenter p q b).x, (arcPoint p q b s).y - (arcCenter p q b).y⟩ := by
  have e : ∀ t, (⟨(arcPoint p q b t).x - (arcCenter p q b).x, (arcPoint p q b t).y - (arcCenter p q b).y⟩ : V2 ℝ) =
      rotV (t * (4 * Real.arctan b)) ⟨p.x - (arcCenter p q b).x, p.y - (arcCenter p q b).y⟩ := by
    intro t
    rw [V2.ext_iff']
    simp [arcPoint]
  rw [e, e, ← rotV_add]
  congr 1
  ring

theorem part_tan {b lo hi : ℝ} (h0 : 0 ≤ lo) (h : lo < hi) (h1 : hi ≤ 1) :
    Real.arctan (Real.tan ((hi - lo) * Real.arctan b)) = (hi - lo) * Real.arctan b := by
  have a1 := Real.arctan_lt_pi_div_two b
  have a2 := Real.neg_pi_div_two_lt_arctan b
  have hpi := Real.pi_pos
  apply Real.arctan_tan
  · rcases le_total 0 (Real.arctan b) with h | h <;> nlinarith
  · rcases le_total 0 (Real.arctan b) with h | h <;> nlinarith

theorem part_ne {b lo hi : ℝ} (hb : b ≠ 0) (h0 : 0 ≤ lo) (h : lo < hi) (h1 : hi ≤ 1) : Real.tan ((hi - lo) * Real.arctan b) ≠ 0 := by
  intro hz
  have := part_tan (b := b) h0 h h1
  rw [hz, Real.arctan_zero] at this
  rcases mul_eq_zero.mp this.symm with h' | h'
  · linarith
  · exact hb (Real.arctan_eq_zero_iff.mp h')

/-- The part of an arc between two fractions has the same center. -/
theorem part_center {p q : V2 ℝ} {b lo hi : ℝ} (hb : b ≠ 0) (h0 : 0 ≤ lo) (h : lo < hi) (h1 : hi ≤ 1) :
    arcCenter (arcPoint p q b lo) (arcPoint p q b hi) (Real.tan ((hi - lo) * Real.arctan b)) = arcCenter p q b := by
  have hr := arcPoint_rot p q b lo hi
  rw [V2.ext_iff'] at hr
  have e : (hi - lo) * (4 * Real.arctan b) = 4 * Real.arctan (Real.tan ((hi - lo) * Real.arctan b)) := by rw [part_tan h0 h h1]; ring
  rw [e] at hr
  exact arcCenter_of_rot (part_ne hb h0 h h1) hr.1 hr.2

theorem part_point {p q : V2 ℝ} {b lo hi : ℝ} (hb : b ≠ 0) (h0 : 0 ≤ lo) (h : lo < hi) (h1 : hi ≤ 1) (x : ℝ) :
    arcPoint (arcPoint p q b lo) (arcPoint p q b hi) (Real.tan ((hi - lo) * Real.arctan b)) x = arcPoint p q b (lo + (hi - lo) * x) := by
  have hc := part_center (p := p) (q := q) hb h0 h h1
  have hr := arcPoint_rot p q b lo (lo + (hi - lo) * x)
  rw [V2.ext_iff'] at hr ⊢
  have e : x * (4 * Real.arctan (Real.tan ((hi - lo) * Real.arctan b))) = (lo + (hi - lo) * x - lo) * (4 * Real.arctan b) := by
    rw [part_tan h0 h h1]; ring
  rw [← e] at hr
  have k : ∀ P Q β, (arcPoint P Q β x).x = (arcCenter P Q β).x + (rotV (x * (4 * Real.arctan β)) ⟨P.x - (arcCenter P Q β).x, P.y - (arcCenter P Q β).y⟩).x ∧
      (arcPoint P Q β x).y = (arcCenter P Q β).y + (rotV (x * (4 * Real.arctan β)) ⟨P.x - (arcCenter P Q β).x, P.y - (arcCenter P Q β).y⟩).y := by
    intro P Q β; constructor <;> rfl
  obtain ⟨k1, k2⟩ := k (arcPoint p q b lo) (arcPoint p q b hi) (Real.tan ((hi - lo) * Real.arctan b))
  rw [k1, k2, hc]
  constructor
  · linarith [hr.1]
  · linarith [hr.2]

theorem arcPoint_ne {p q : V2 ℝ} {b : ℝ} (hne : p ≠ q) (hb : b ≠ 0) (hb1 : |b| ≤ 1) {s t : ℝ} (h0 : 0 ≤ s) (h : s < t) (h1 : t ≤ 1) : arcPoint p q b s ≠ arcPoint p q b t := by
  intro e
  have hr := arcPoint_rot p q b s t
  rw [← e, V2.ext_iff'] at hr
  have hd := arcPoint_dist_sq p q b s hb
  have hR := arcRadius_pos hne hb
  have hθ := abs_four_arctan_le hb1
  set θ := (t - s) * (4 * Real.arctan b) with hth
  set X := (arcPoint p q b s).x - (arcCenter p q b).x
  set Y := (arcPoint p q b s).y - (arcCenter p q b).y
  simp only [rotV] at hr
  have hc : (1 - Real.cos θ) * (X ^ 2 + Y ^ 2) = 0 := by
    nlinarith [hr.1, hr.2, Real.sin_sq_add_cos_sq θ]
  have hXY : X ^ 2 + Y ^ 2 = arcRadius p q b ^ 2 := hd
  rw [hXY] at hc
  have hcos : Real.cos θ = 1 := by
    rcases mul_eq_zero.mp hc with h | h
    · linarith
    · exact absurd h (pow_ne_zero 2 hR.ne')
  have hθ0 : θ ≠ 0 := by
    rw [hth]
    apply mul_ne_zero (by linarith)
    intro h0
    exact hb (Real.arctan_eq_zero_iff.mp (by linarith))
  have hθpi : |θ| ≤ Real.pi := by
    rw [hth, abs_mul, abs_of_pos (by linarith)]
    have := Real.pi_pos
    nlinarith [abs_nonneg (4 * Real.arctan b)]
  rw [abs_le] at hθpi
  exact hθ0 ((Real.cos_eq_one_iff_of_lt_of_lt (by linarith [Real.pi_pos]) (by linarith [Real.pi_pos])).mp hcos)

/-- The change of angle between two points of an arc. -/
theorem delta_part {s : Vertex ℝ × Vertex ℝ} (hs : ProperArc s.1 s.2) {lo hi : ℝ} (h0 : 0 ≤ lo) (h : lo < hi) (h1 : hi ≤ 1) :
    deltaAngle (angle (segCenter s) (segCurve s.1 s.2 lo)) (angle (segCenter s) (segCurve s.1 s.2 hi)) = (hi - lo) * (4 * Real.arctan s.1.bulge) ∨
    (lo = 0 ∧ hi = 1 ∧ s.1.bulge < 0 ∧
      deltaAngle (angle (segCenter s) (segCurve s.1 s.2 lo)) (angle (segCenter s) (segCurve s.1 s.2 hi)) = Real.pi) := by
  have hb := bulge_ne_zero hs.notLine
  have hθ := abs_four_arctan_le hs.half
  rw [segCurve_arc hs.notLine, segCurve_arc hs.notLine]
  set θ := 4 * Real.arctan s.1.bulge with hth
  have c1 := angle_arcPoint hs.ne hb lo
  have c2 := angle_arcPoint hs.ne hb hi
  have hcg : AngleCongr (angle (segCenter s) (arcPoint s.1.pos s.2.pos s.1.bulge hi))
      (angle (segCenter s) (arcPoint s.1.pos s.2.pos s.1.bulge lo) + (hi - lo) * θ) := by
    obtain ⟨m, hm⟩ := c1
    obtain ⟨n, hn⟩ := c2
    refine ⟨n - m, ?_⟩
    unfold segCenter
    push_cast
    linear_combination hn - hm
  have hpi := Real.pi_pos
  rw [abs_le] at hθ
  rcases lt_or_ge (-Real.pi) ((hi - lo) * θ) with hlt | hge
  · left
    exact deltaAngle_of_congr hcg hlt (by nlinarith)
  · right
    have e1 : hi - lo = 1 := by nlinarith
    have e2 : θ = -Real.pi := by rw [e1] at hge; linarith
    refine ⟨by linarith, by linarith, ?_, ?_⟩
    · by_contra hn
      have : 0 ≤ Real.arctan s.1.bulge := Real.arctan_nonneg.mpr (not_lt.mp hn)
      linarith
    · apply deltaAngle_of_congr _ (by linarith) le_rfl
      obtain ⟨m, hm⟩ := hcg
      refine ⟨m - 1, ?_⟩
      rw [e1, e2] at hm
      push_cast
      linear_combination hm

theorem part_sign {b lo hi : ℝ} (hb : |b| ≤ 1) (h0 : 0 ≤ lo) (h : lo < hi) (h1 : hi ≤ 1) :
    (0 < Real.tan ((hi - lo) * Real.arctan b) ↔ 0 < b) ∧ (Real.tan ((hi - lo) * Real.arctan b) < 0 ↔ b < 0) := by
  have e := part_tan (b := b) h0 h h1
  constructor
  · rw [← Real.arctan_pos, e, ← Real.arctan_pos (x := b)]
    exact mul_pos_iff_of_pos_left (by linarith)
  · rw [← Real.arctan_lt_zero, e, ← Real.arctan_lt_zero (x := b)]
    have hp : 0 < hi - lo := by linarith
    exact ⟨fun h' => by by_contra hn; exact absurd h' (not_lt.mpr (mul_nonneg hp.le (not_lt.mp hn))), fun h' => mul_neg_of_pos_of_neg hp h'⟩

/-- The bulge computed for a part of an arc: the value from the change of angle, or the old one `old` if that has the wrong sign. -/
theorem bulge_part {s : Vertex ℝ × Vertex ℝ} (hs : ProperArc s.1 s.2) {lo hi old : ℝ} (h0 : 0 ≤ lo) (h : lo < hi) (h1 : hi ≤ 1)
    (hold : lo = 0 → hi = 1 → old = s.1.bulge) (hpos : 0 < old ↔ 0 < s.1.bulge) :
    (if (Scalar.gt (deltaAngle (angle (segCenter s) (segCurve s.1 s.2 lo)) (angle (segCenter s) (segCurve s.1 s.2 hi))) 0 == decide (0 < old)) = true
      then bulgeFromAngle (deltaAngle (angle (segCenter s) (segCurve s.1 s.2 lo)) (angle (segCenter s) (segCurve s.1 s.2 hi))) else old) =
      Real.tan ((hi - lo) * Real.arctan s.1.bulge) := by
  have hb := bulge_ne_zero hs.notLine
  rcases delta_part hs h0 h h1 with e | ⟨rfl, rfl, hneg, e⟩
  · rw [e]
    have hg : (0 < (hi - lo) * (4 * Real.arctan s.1.bulge)) ↔ 0 < s.1.bulge := by
      rw [mul_pos_iff_of_pos_left (by linarith), mul_pos_iff_of_pos_left (by norm_num), Real.arctan_pos]
    rw [if_pos (by
      simp only [gt_eq, beq_iff_eq, decide_eq_decide]
      rw [hg, hpos])]
    show Real.tan ((hi - lo) * (4 * Real.arctan s.1.bulge) / 4) = _
    congr 1; ring
  · rw [e, if_neg (by
      have : ¬ 0 < old := by rw [hpos]; linarith
      simp [Real.pi_pos, this]), hold rfl rfl]
    rw [sub_zero, one_mul, Real.tan_arctan]

/-- The vertex of the rest of a segment -/
theorem partVertex_pos (s : Vertex ℝ × Vertex ℝ) (lo hi : ℝ) : (partVertex s lo hi).pos = segCurve s.1 s.2 lo := rfl

theorem partVertex_full (s : Vertex ℝ × Vertex ℝ) : partVertex s 0 1 = s.1 := by
  unfold partVertex
  rw [(segCurve_ends _ _).1, sub_zero, one_mul, Real.tan_arctan]
  rfl

theorem partVertex_line {s : Vertex ℝ × Vertex ℝ} (h : s.1.bulge = 0) (lo hi : ℝ) : partVertex s lo hi = Vertex.ofV2 (segCurve s.1 s.2 lo) 0 := by
  unfold partVertex
  rw [h, Real.arctan_zero, mul_zero, Real.tan_zero]

/-- The curve of a part. -/
theorem part_curve {s : Vertex ℝ × Vertex ℝ} (hs : s.1.bulge = 0 ∨ ProperArc s.1 s.2) {lo hi : ℝ} (h0 : 0 ≤ lo) (h : lo < hi) (h1 : hi ≤ 1)
    (hl : LongPart s.1 lo hi) {z : Vertex ℝ} (hz : z.pos = segCurve s.1 s.2 hi) (x : ℝ) :
    segCurve (partVertex s lo hi) z x = segCurve s.1 s.2 (lo + (hi - lo) * x) := by
  rcases hs with hb | hs
  · have l1 : IsLine s.1 := by unfold IsLine; rw [hb]; norm_num
    have l2 : IsLine (partVertex s lo hi) := by rw [partVertex_line hb]; unfold IsLine Vertex.ofV2; norm_num
    rw [segCurve_line l2, segCurve_line l1, partVertex_pos, hz, segCurve_line l1, segCurve_line l1, V2.ext_iff']
    simp only [linePoint]
    constructor <;> ring
  · have hb := bulge_ne_zero hs.notLine
    have hL := hl.resolve_left hs.notLine
    have l2 : ¬ IsLine (partVertex s lo hi) := by
      unfold IsLine partVertex Vertex.ofV2; exact not_lt.mpr hL
    rw [segCurve_arc l2, partVertex_pos, hz, segCurve_arc hs.notLine, segCurve_arc hs.notLine, segCurve_arc hs.notLine]
    exact part_point hb h0 h h1 x

end Cavc
