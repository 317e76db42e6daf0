import Verif.Spec.Same
import Verif.Props.ArcOverlap
import Verif.Props.FindIntrReal
import Verif.Props.RegionBool

/-! # Intersecting a segment with itself -/

namespace Cavc
open RealScalar

theorem within_part {a θ u : ℝ} (h0 : θ ≠ 0) (h : |θ| ≤ Real.pi) (u0 : 0 ≤ u) (u1 : u ≤ 1) : angleIsWithinSweep (a + u * θ) a θ = true := by
  have hp := Real.pi_pos
  rcases lt_or_gt_of_ne h0 with hn | hn
  · rw [abs_of_neg hn] at h
    rw [within_neg hn, inSweep_iff (by linarith) h]
    rw [show a + u * θ - (a + θ) = (1 - u) * -θ by ring, normalizeRadians_self (mul_nonneg (by linarith) (by linarith)) (by nlinarith)]
    nlinarith
  · rw [abs_of_pos hn] at h
    rw [within_pos hn, inSweep_iff hn.le h]
    rw [show a + u * θ - a = u * θ by ring, normalizeRadians_self (mul_nonneg u0 hn.le) (by nlinarith)]
    nlinarith

theorem line_same {a b c d : V2 ℝ} {eps : ℝ} (he : 0 < eps) (hd : c.fuzzyEqEps d eps = false)
    (h : a = c ∧ b = d ∨ a = d ∧ b = c) : lineLineIntr a b c d eps = .overlapping 0 1 := by
  have hap := (apart_iff c d eps).mp hd
  have hle := apart_le hap
  have hd' : d.fuzzyEqEps c eps = false := by
    rw [apart_iff] at *
    unfold Apart at *
    rwa [abs_sub_comm d.x, abs_sub_comm d.y]
  have hlen := length_edist c d
  have hy : |(d - c).x| < eps → (d - c).y ≠ 0 := by
    intro hx h0
    simp only [V2.sub_x, V2.sub_y] at hx h0
    unfold Apart at hap
    rw [abs_sub_comm c.x, abs_sub_comm c.y, h0, abs_zero] at hap
    rcases hap with h | h <;> linarith
  have hx : ¬ |(d - c).x| < eps → (d - c).x ≠ 0 := by
    intro hx h0
    rw [h0, abs_zero] at hx
    exact hx he
  have tail : ∀ s : ℝ, (if (!Scalar.fuzzyLtEps (0 * edist c d) (edist c d) eps || !Scalar.fuzzyGtEps (1 * edist c d) 0 eps) = true then
      LineLineIntr.noIntersect
    else if Scalar.fuzzyEqZeroEps ((Scalar.min 1 (1 : ℝ) - Scalar.max 0 (0 : ℝ)) * edist c d) eps = true then
      LineLineIntr.trueIntersect s (Scalar.max 0 (0 : ℝ)) else .overlapping (Scalar.max 0 (0 : ℝ)) (Scalar.min 1 (1 : ℝ))) = .overlapping 0 1 := by
    intro s
    have e1 : (0 : ℝ) * edist c d < edist c d + eps := by linarith
    have e2 : (0 : ℝ) < 1 * edist c d + eps := by linarith
    have e3 : ¬ |edist c d| < eps := by rw [abs_of_nonneg (edist_nonneg _ _)]; linarith
    simp [e3, show (0 : ℝ) < edist c d + eps by linarith]
  unfold lineLineIntr
  rcases h with ⟨rfl, rfl⟩ | ⟨rfl, rfl⟩
  · have z1 : (b - a).perpDot (b - a) = 0 := by simp [V2.perpDot]; ring
    have z2 : (b - a).perpDot (a - a) = 0 := by simp [V2.perpDot]
    have ez : Scalar.fuzzyEqZeroEps (0 : ℝ) eps = true := by simp [he]
    simp only [z1, z2, hd, hlen, ez, Bool.not_true, Bool.or_false, Bool.and_false, Bool.false_eq_true, if_false]
    by_cases hc : |(b - a).x| < eps
    · have := hy hc
      have hc' : Scalar.fuzzyEqZeroEps (b - a).x eps = true := by rw [fuzzyEqZeroEps_eq, decide_eq_true_eq]; exact hc
      simp only [hc', if_true, V2.sub_y, sub_self, zero_div]
      rw [V2.sub_y] at this
      rw [div_self this]
      have g : Scalar.gt (0 : ℝ) 1 = false := by simp
      simp only [g, Bool.false_eq_true, if_false]
      exact tail _
    · have := hx hc
      have hc' : Scalar.fuzzyEqZeroEps (b - a).x eps = false := by rw [fuzzyEqZeroEps_eq, decide_eq_false_iff_not]; exact hc
      simp only [hc', Bool.false_eq_true, if_false]
      simp only [V2.sub_x, sub_self, zero_div]
      rw [V2.sub_x] at this
      rw [div_self this]
      have g : Scalar.gt (0 : ℝ) 1 = false := by simp
      simp only [g, Bool.false_eq_true, if_false]
      exact tail _
  · have z1 : (b - a).perpDot (a - b) = 0 := by simp [V2.perpDot]; ring
    have z2 : (b - a).perpDot (a - b) = 0 := by simp [V2.perpDot]; ring
    have z3 : (a - b).perpDot (a - b) = 0 := by simp [V2.perpDot]; ring
    have ez : Scalar.fuzzyEqZeroEps (0 : ℝ) eps = true := by simp [he]
    simp only [z1, z2, z3, hd, hd', hlen, ez, Bool.not_true, Bool.or_false, Bool.and_false, Bool.false_eq_true, if_false]
    by_cases hc : |(a - b).x| < eps
    · have := hy hc
      have hc' : Scalar.fuzzyEqZeroEps (a - b).x eps = true := by rw [fuzzyEqZeroEps_eq, decide_eq_true_eq]; exact hc
      simp only [hc', if_true, V2.sub_y, sub_self, zero_div]
      rw [V2.sub_y] at this
      rw [div_self this]
      have g : Scalar.gt (1 : ℝ) 0 = true := by simp
      simp only [g, if_true]
      exact tail _
    · have := hx hc
      have hc' : Scalar.fuzzyEqZeroEps (a - b).x eps = false := by rw [fuzzyEqZeroEps_eq, decide_eq_false_iff_not]; exact hc
      simp only [hc', Bool.false_eq_true, if_false]
      simp only [V2.sub_x, sub_self, zero_div]
      rw [V2.sub_x] at this
      rw [div_self this]
      have g : Scalar.gt (1 : ℝ) 0 = true := by simp
      simp only [g, if_true]
      exact tail _

/-- the chord of an arc is not longer than the arc -/
theorem chord_le_arc {v w : Vertex ℝ} (h : ProperArc v w) : edist v.pos w.pos ≤ arcRadius v.pos w.pos v.bulge * |4 * Real.arctan v.bulge| := by
  have hb := bulge_ne_zero h.notLine
  have c1 := arcPoint_edist v.pos w.pos v.bulge 0 hb
  have c2 := arcPoint_edist v.pos w.pos v.bulge 1 hb
  rw [arcPoint_zero] at c1
  rw [arcPoint_one _ _ _ hb] at c2
  have := circle_chord (δ := -(4 * Real.arctan v.bulge)) c1 c2 (by
    have := angle_arcEnd h.ne hb
    obtain ⟨k, hk⟩ := this
    exact ⟨-k, by push_cast; linarith⟩)
  rwa [abs_neg] at this

/-- A segment overlaps with itself, whichever the directions, from its start to its end as seen by the second polyline. -/
theorem same_overlap {s t : Vertex ℝ × Vertex ℝ} {eps : ℝ} (he : 0 < eps) (ht : FullSeg t.1 t.2 eps) (h : SamePiece (pieceOf s) (pieceOf t)) :
    (plineSegIntr s.1 s.2 t.1 t.2 eps).overlap = some (t.1.pos, t.2.pos) := by
  obtain ⟨s1, s2⟩ := s
  obtain ⟨t1, t2⟩ := t
  have hcase : (s1.pos = t1.pos ∧ s2.pos = t2.pos ∧ s1.bulge = t1.bulge) ∨ (s1.pos = t2.pos ∧ s2.pos = t1.pos ∧ s1.bulge = -t1.bulge) := by
    rcases h with h | h
    · simp only [pieceOf, Piece.mk.injEq] at h
      exact Or.inl h
    · simp only [pieceOf, Piece.flip, Piece.mk.injEq] at h
      exact Or.inr h
  have habs : |s1.bulge| = |t1.bulge| := by
    rcases hcase with ⟨-, -, h⟩ | ⟨-, -, h⟩ <;> rw [h]
    rw [abs_neg]
  have hline : IsLine s1 ↔ IsLine t1 := by unfold IsLine; rw [habs]
  by_cases hl : IsLine t1
  · unfold plineSegIntr
    simp only [bulgeIsZero_true hl, bulgeIsZero_true (hline.mpr hl), Bool.and_self, if_true]
    rw [line_same he ht.apart (by rcases hcase with ⟨h1, h2, -⟩ | ⟨h1, h2, -⟩ <;> [left; right] <;> exact ⟨h1, h2⟩)]
    simp [PlineSegIntr.overlap, pointFromParametric_eq, linePoint]
    exact ⟨rfl, rfl⟩
  · have hu := (ht.proper he).resolve_left hl
    have hbu := bulge_ne_zero hl
    have hv : ProperArc s1 s2 := by
      refine ⟨fun h => hl (hline.mp h), by rw [habs]; exact hu.half, ?_⟩
      rcases hcase with ⟨h1, h2, -⟩ | ⟨h1, h2, -⟩
      · rw [h1, h2]; exact hu.ne
      · rw [h1, h2]; exact hu.ne.symm
    have hbv := bulge_ne_zero hv.notLine
    have hc : arcCenter t1.pos t2.pos t1.bulge = arcCenter s1.pos s2.pos s1.bulge := by
      rcases hcase with ⟨h1, h2, h3⟩ | ⟨h1, h2, h3⟩
      · rw [h1, h2, h3]
      · rw [h1, h2, h3, arcCenter_swap _ _ _ hbu]
    have hr : arcRadius t1.pos t2.pos t1.bulge = arcRadius s1.pos s2.pos s1.bulge := by
      rcases hcase with ⟨h1, h2, h3⟩ | ⟨h1, h2, h3⟩
      · rw [h1, h2, h3]
      · rw [h1, h2, h3, arcRadius_swap]
    have hlen := chord_le_arc hv
    have hch : eps ≤ edist s1.pos s2.pos := by
      have := apart_le ((apart_iff _ _ _).mp ht.apart)
      rcases hcase with ⟨h1, h2, -⟩ | ⟨h1, h2, -⟩
      · rw [h1, h2]; exact this
      · rw [h1, h2, edist_comm]; exact this
    unfold plineSegIntr
    simp only [bulgeIsZero_false hv.notLine, bulgeIsZero_false hl, Bool.and_self, Bool.false_eq_true, if_false,
      segArcRadiusAndCenter_eq s1 s2 hbv hv.ne, segArcRadiusAndCenter_eq t1 t2 hbu hu.ne, hc, hr]
    have hr0 := arcRadius_pos hv.ne hbv
    have hres : circleCircleIntr (arcRadius s1.pos s2.pos s1.bulge) (arcCenter s1.pos s2.pos s1.bulge)
        (arcRadius s1.pos s2.pos s1.bulge) (arcCenter s1.pos s2.pos s1.bulge) eps = .overlapping := by
      unfold circleCircleIntr
      simp [V2.dot_eq, he]
    rw [hres]
    dsimp only
    have hθ : |4 * Real.arctan s1.bulge| ≤ Real.pi := abs_four_arctan_le hv.half
    have afb : ∀ b : ℝ, angleFromBulge b = 4 * Real.arctan b := fun b => by simp [angleFromBulge]
    have avg : ∀ r : ℝ, (r + r) / Scalar.two = r := fun r => by rw [two_eq]; ring
    unfold arcArcOverlap
    have hneg : (s1.bulge = t1.bulge → s1.bulgeIsNeg = t1.bulgeIsNeg) ∧ (s1.bulge = -t1.bulge → s1.bulgeIsNeg = !t1.bulgeIsNeg) := by
      rw [Vertex.bulgeIsNeg_eq, Vertex.bulgeIsNeg_eq]
      refine ⟨fun h => by rw [h], fun h => ?_⟩
      rw [h]
      rcases lt_or_gt_of_ne hbu with hh | hh
      · simp [hh, hh.le]
      · simp [hh, hh.le]
    have e1 : (if (s1.bulgeIsNeg == t1.bulgeIsNeg) = true then normalizeRadians (angle (arcCenter s1.pos s2.pos s1.bulge) t1.pos)
        else normalizeRadians (angle (arcCenter s1.pos s2.pos s1.bulge) t2.pos)) = normalizeRadians (angle (arcCenter s1.pos s2.pos s1.bulge) s1.pos) := by
      rcases hcase with ⟨h1, h2, h3⟩ | ⟨h1, h2, h3⟩
      · rw [if_pos (by rw [hneg.1 h3]; simp), h1]
      · rw [if_neg (by rw [hneg.2 h3]; cases t1.bulgeIsNeg <;> simp), h1]
    have e2 : (if (s1.bulgeIsNeg == t1.bulgeIsNeg) = true then 4 * Real.arctan t1.bulge else 4 * Real.arctan (-t1.bulge)) = 4 * Real.arctan s1.bulge := by
      rcases hcase with ⟨h1, h2, h3⟩ | ⟨h1, h2, h3⟩
      · rw [if_pos (by rw [hneg.1 h3]; simp), h3]
      · rw [if_neg (by rw [hneg.2 h3]; cases t1.bulgeIsNeg <;> simp), h3]
    simp only [afb, avg, e1, e2]
    generalize normalizeRadians (angle (arcCenter s1.pos s2.pos s1.bulge) s1.pos) = a
    have hθ0 : 4 * Real.arctan s1.bulge ≠ 0 := by
      intro h0
      rw [h0, abs_zero, mul_zero] at hlen
      linarith
    have hd : Scalar.fuzzyEqZeroEps (arcRadius s1.pos s2.pos s1.bulge * deltaAngle a (a + 4 * Real.arctan s1.bulge)) eps = false := by
      rw [fuzzyEqZeroEps_eq, decide_eq_false_iff_not, abs_mul, abs_of_pos hr0, abs_deltaAngle_of_congr (AngleCongr.refl _) hθ]
      linarith
    have w1 := within_part (a := a) hθ0 hθ le_rfl zero_le_one
    rw [zero_mul, add_zero] at w1
    have w2 : angleIsWithinSweep (a + 4 * Real.arctan s1.bulge) a (4 * Real.arctan s1.bulge) = true := by
      have := within_part (a := a) hθ0 hθ zero_le_one le_rfl
      rwa [one_mul] at this
    simp only [hd, w1, w2]
    simp [PlineSegIntr.overlap]

end Cavc
