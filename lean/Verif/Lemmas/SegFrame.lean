import Verif.Spec.OffsetCorners
import Verif.Lemmas.OffsetArcsNear
import Verif.Lemmas.OffsetLocal

/-! # Directions of segments, and their parallel curves -/

set_option linter.unusedVariables false

namespace Cavc
open Pline

/-- a line, or an arc of at most half a circle, with different ends -/
structure SegShape (v w : Vertex ℝ) : Prop where
  kind : IsLine v ∨ ProperArc v w
  ne : v.pos ≠ w.pos

theorem rot_sq (θ : ℝ) (u : V2 ℝ) : (rotV θ u).x ^ 2 + (rotV θ u).y ^ 2 = u.x ^ 2 + u.y ^ 2 := by
  simp only [rotV]
  linear_combination (u.x ^ 2 + u.y ^ 2) * Real.sin_sq_add_cos_sq θ

section
variable {v w : Vertex ℝ}

theorem segDir_sq (v w : Vertex ℝ) (u : ℝ) : (segDir v w u).x ^ 2 + (segDir v w u).y ^ 2 = edist v.pos w.pos ^ 2 := by
  rw [edist_sq]
  unfold segDir
  split_ifs
  · simp only [Vertex.pos]; ring
  · rw [rot_sq]; simp only [Vertex.pos]; ring

theorem SegShape.len (h : SegShape v w) : 0 < edist v.pos w.pos := (edist_pos_sq h.ne).1

/-- the direction of an arc is at a right angle to the radius -/
theorem arcDir (b t : ℝ) (hb : b ≠ 0) (P Q : V2 ℝ) : rotV ((2 * t - 1) * (2 * Real.arctan b)) ⟨Q.x - P.x, Q.y - P.y⟩ =
    ⟨-(2 * Real.sin (2 * Real.arctan b)) * ((arcPoint P Q b t).y - (arcCenter P Q b).y), 2 * Real.sin (2 * Real.arctan b) * ((arcPoint P Q b t).x - (arcCenter P Q b).x)⟩ := by
  have h1 := arcPoint_one P Q b hb
  set C := arcCenter P Q b with hC
  have hQ : Q = ⟨C.x + (rotV (1 * (4 * Real.arctan b)) ⟨P.x - C.x, P.y - C.y⟩).x, C.y + (rotV (1 * (4 * Real.arctan b)) ⟨P.x - C.x, P.y - C.y⟩).y⟩ := h1.symm
  have hX : arcPoint P Q b t = ⟨C.x + (rotV (t * (4 * Real.arctan b)) ⟨P.x - C.x, P.y - C.y⟩).x, C.y + (rotV (t * (4 * Real.arctan b)) ⟨P.x - C.x, P.y - C.y⟩).y⟩ := rfl
  rw [hX]
  set θ := 2 * Real.arctan b with hθ
  have e4 : 4 * Real.arctan b = 2 * θ := by rw [hθ]; ring
  rw [e4, one_mul] at hQ
  rw [e4]
  rw [V2.ext_iff'] at hQ
  simp only [rotV] at hQ
  set A := P.x - C.x with hA
  set B := P.y - C.y with hB
  have q1 : Q.x - P.x = A * Real.cos (2 * θ) - B * Real.sin (2 * θ) - A := by linarith [hQ.1]
  have q2 : Q.y - P.y = A * Real.sin (2 * θ) + B * Real.cos (2 * θ) - B := by linarith [hQ.2]
  have t1 : t * (2 * θ) = (2 * t - 1) * θ + θ := by ring
  rw [V2.ext_iff']
  simp only [rotV, q1, q2, t1]
  rw [Real.cos_add, Real.sin_add, Real.cos_two_mul, Real.sin_two_mul]
  have hs := Real.sin_sq_add_cos_sq θ
  set S := Real.sin θ
  set K := Real.cos θ
  set s := Real.sin ((2 * t - 1) * θ)
  set k := Real.cos ((2 * t - 1) * θ)
  constructor
  · linear_combination (2 * A * k - 2 * B * s) * hs
  · linear_combination (2 * A * s + 2 * B * k) * hs

/-- A segment runs in its direction. -/
theorem seg_deriv (h : SegShape v w) (t : ℝ) : ∃ l > 0, HasDerivAt (fun t => (segCurve v w t).x) (l * (segDir v w t).x) t ∧
    HasDerivAt (fun t => (segCurve v w t).y) (l * (segDir v w t).y) t := by
  by_cases hl : IsLine v
  · refine ⟨1, one_pos, ?_, ?_⟩
    · simp only [segCurve_line hl, segDir, if_pos hl, one_mul]
      exact (linePoint_hasDerivAt v.pos w.pos t).1
    · simp only [segCurve_line hl, segDir, if_pos hl, one_mul]
      exact (linePoint_hasDerivAt v.pos w.pos t).2
  · have ha := h.kind.resolve_left hl
    have hb := bulge_ne_zero hl
    obtain ⟨d1, d2⟩ := arcPoint_hasDerivAt v.pos w.pos v.bulge t
    have e := arcDir v.bulge t hb v.pos w.pos
    set θ := 2 * Real.arctan v.bulge with hθ
    have hle : |θ| ≤ Real.pi / 2 := by
      have h1 := Real.arctan_mono (abs_le.mp ha.half).2
      have h2 := Real.arctan_mono (abs_le.mp ha.half).1
      rw [Real.arctan_one] at h1
      rw [Real.arctan_neg, Real.arctan_one] at h2
      rw [abs_le, hθ]; constructor <;> linarith
    have hθ0 : θ ≠ 0 := by
      rw [hθ]
      intro h0
      apply hb
      have : Real.arctan v.bulge = 0 := by linarith
      exact Real.arctan_eq_zero_iff.mp this
    have hpi := Real.pi_pos
    have hs : 0 < θ * Real.sin θ := by
      rcases lt_or_gt_of_ne hθ0 with h0 | h0
      · have := Real.sin_neg_of_neg_of_neg_pi_lt h0 (by linarith [(abs_le.mp hle).1])
        exact mul_pos_of_neg_of_neg h0 this
      · exact mul_pos h0 (Real.sin_pos_of_pos_of_lt_pi h0 (by linarith [(abs_le.mp hle).2]))
    have hsn : Real.sin θ ≠ 0 := by rintro h0; rw [h0, mul_zero] at hs; exact lt_irrefl _ hs
    refine ⟨θ / Real.sin θ, ?_, ?_, ?_⟩
    · have : θ / Real.sin θ = θ * Real.sin θ / Real.sin θ ^ 2 := by field_simp
      rw [this]; positivity
    · simp only [segCurve_arc hl, segDir, if_neg hl]
      refine d1.congr_deriv ?_
      have e' := congrArg V2.x e
      dsimp only [Vertex.pos] at e' ⊢
      rw [e']
      have : 4 * Real.arctan v.bulge = 2 * θ := by rw [hθ]; ring
      rw [this]; field_simp
    · simp only [segCurve_arc hl, segDir, if_neg hl]
      refine d2.congr_deriv ?_
      have e' := congrArg V2.y e
      dsimp only [Vertex.pos] at e' ⊢
      rw [e']
      have : 4 * Real.arctan v.bulge = 2 * θ := by rw [hθ]; ring
      rw [this]; field_simp

/-- The parallel segment, for any offset. -/
theorem par_eq (h : SegShape v w) (d t : ℝ) : segCurve (parSeg v w d).1 (parSeg v w d).2 t =
    ⟨(segCurve v w t).x - d * ((segDir v w t).y / edist v.pos w.pos), (segCurve v w t).y + d * ((segDir v w t).x / edist v.pos w.pos)⟩ := by
  have hm : MovedLeft (segCurve v w) d t (segCurve (parSeg v w d).1 (parSeg v w d).2 t) := by
    by_cases hl : IsLine v
    · have := rawLine_spec d v w hl h.ne t
      have e : parSeg v w d = ((rawLineSeg d v w).v1, (rawLineSeg d v w).v2) := by
        have := rawSeg_par d h.ne (Or.inl hl)
        unfold rawSeg at this
        rw [bulgeIsZero_true hl, if_pos rfl] at this
        rw [this]
      rw [e]; exact this
    · have hb := bulge_ne_zero hl
      have hmoved := rawArc_spec d v w hl h.ne t
      have hom := arc_homothety v.pos w.pos v.bulge (offRadius v w d / arcRadius v.pos w.pos v.bulge) hb
      dsimp only at hmoved hom
      refine Eq.mpr ?_ hmoved
      congr 1
      have hl' : ¬ IsLine (parSeg v w d).1 := by unfold IsLine at hl ⊢; rwa [parSeg_bulge hl]
      rw [segCurve_arc hl', segCurve_arc hl, parSeg_bulge hl]
      refine Eq.trans ?_ (hom.2 t)
      unfold parSeg
      rw [if_neg hl]
      rfl
  obtain ⟨dx, dy, h1, h2, hpos, e1, e2⟩ := hm
  obtain ⟨l, hl, g1, g2⟩ := seg_deriv h t
  have f1 := h1.unique g1
  have f2 := h2.unique g2
  have hs : Real.sqrt (dx ^ 2 + dy ^ 2) = l * edist v.pos w.pos := by
    rw [f1, f2, mul_pow, mul_pow, ← mul_add, segDir_sq, ← mul_pow, Real.sqrt_sq (mul_nonneg hl.le h.len.le)]
  have hL := h.len.ne'
  rw [V2.ext_iff', e1, e2, hs, f1, f2]
  dsimp only
  constructor <;> field_simp <;> ring

end

end Cavc
