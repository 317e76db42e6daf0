import Verif.Lemmas.ArcParts

/-! # On which side of a part of the raw offset the distance is kept -/

set_option linter.unusedVariables false
set_option linter.unusedSectionVars false

namespace Cavc
open RealScalar Pline

/-- a quadratic function of the point -/
def quad (A B C D : ℝ) (Y : V2 ℝ) : ℝ := A * (Y.x ^ 2 + Y.y ^ 2) + B * Y.x + C * Y.y + D

/-- its derivative along a curve -/
theorem quad_along (A B C D : ℝ) {f : ℝ → V2 ℝ} {a b t : ℝ} (h1 : HasDerivAt (fun s => (f s).x) a t) (h2 : HasDerivAt (fun s => (f s).y) b t) :
    HasDerivAt (fun s => quad A B C D (f s)) ((2 * A * (f t).x + B) * a + (2 * A * (f t).y + C) * b) t := by
  have := (((((h1.pow 2).add (h2.pow 2)).const_mul A).add (h1.const_mul B)).add (h2.const_mul C)).add_const D
  refine (this.congr_deriv ?_)
  simp; ring

/-- the gradient does not vanish at a point -/
def QuadGrad (A B C : ℝ) (X : V2 ℝ) : Prop := 2 * A * X.x + B ≠ 0 ∨ 2 * A * X.y + C ≠ 0

section
variable {v w : Vertex ℝ} {d : ℝ}

theorem par_arc (h : SegShape v w) (hl : ¬ IsLine v) (d t : ℝ) : segCurve (parSeg v w d).1 (parSeg v w d).2 t =
    ⟨(arcCenter v.pos w.pos v.bulge).x + offRadius v w d / arcRadius v.pos w.pos v.bulge * ((arcPoint v.pos w.pos v.bulge t).x - (arcCenter v.pos w.pos v.bulge).x),
     (arcCenter v.pos w.pos v.bulge).y + offRadius v w d / arcRadius v.pos w.pos v.bulge * ((arcPoint v.pos w.pos v.bulge t).y - (arcCenter v.pos w.pos v.bulge).y)⟩ := by
  have hb := bulge_ne_zero hl
  have hom := arc_homothety v.pos w.pos v.bulge (offRadius v w d / arcRadius v.pos w.pos v.bulge) hb
  dsimp only at hom
  have hl' : ¬ IsLine (parSeg v w d).1 := by unfold IsLine at hl ⊢; rwa [parSeg_bulge hl]
  rw [segCurve_arc hl', parSeg_bulge hl]
  refine Eq.trans ?_ (hom.2 t)
  unfold parSeg
  rw [if_neg hl]
  rfl

theorem side_quad_line (h : SegShape v w) (hd : d ≠ 0) (hl : IsLine v) : ∃ A B C D, (∀ t, quad A B C D (segCurve (parSeg v w d).1 (parSeg v w d).2 t) = 0) ∧
    (∀ t, QuadGrad A B C (segCurve (parSeg v w d).1 (parSeg v w d).2 t)) ∧ ∀ Y, 0 ≤ quad A B C D Y → ∀ q, OnSeg v w q → |d| ≤ edist Y q := by
  have hL := h.len
  have hsq := edist_sq v.pos w.pos
  set L := edist v.pos w.pos with hLd
  refine ⟨0, -d * (w.y - v.y), d * (w.x - v.x), d * (v.x * (w.y - v.y) - v.y * (w.x - v.x)) - d ^ 2 * L, fun t => ?_, fun t => ?_, fun Y hY q hq => ?_⟩
  · rw [par_eq h, segCurve_line hl, segDir, if_pos hl, ← hLd]
    unfold quad linePoint
    dsimp only [Vertex.pos]
    dsimp only [Vertex.pos] at hsq
    field_simp
    linear_combination (-d ^ 2 * L) * hsq
  · unfold QuadGrad
    by_contra hcon
    push Not at hcon
    obtain ⟨h1, h2⟩ := hcon
    have e1 : w.y - v.y = 0 := by
      rcases mul_eq_zero.mp (show d * (w.y - v.y) = 0 by linarith) with h | h
      · exact absurd h hd
      · exact h
    have e2 : w.x - v.x = 0 := by
      rcases mul_eq_zero.mp (show d * (w.x - v.x) = 0 by linarith) with h | h
      · exact absurd h hd
      · exact h
    refine h.ne ?_
    rw [V2.ext_iff']
    exact ⟨by simp only [Vertex.pos]; linarith, by simp only [Vertex.pos]; linarith⟩
  · obtain ⟨t, t0, t1, rfl⟩ := hq
    rw [segCurve_line hl]
    set q := linePoint v.pos w.pos t with hq
    have hqx : q.x = v.x + t * (w.x - v.x) := rfl
    have hqy : q.y = v.y + t * (w.y - v.y) := rfl
    unfold quad at hY
    set m := (w.x - v.x) * (Y.y - q.y) - (w.y - v.y) * (Y.x - q.x) with hm
    have hY' : d ^ 2 * L ≤ d * m := by rw [hm, hqx, hqy]; linarith
    have he := edist_sq Y q
    have hen := edist_nonneg Y q
    have hm2 : m ^ 2 ≤ (L * edist Y q) ^ 2 := by
      rw [mul_pow, he, hsq]
      simp only [Vertex.pos]
      rw [hm]
      linarith [sq_nonneg ((w.x - v.x) * (Y.x - q.x) + (w.y - v.y) * (Y.y - q.y))]
    have hm3 := abs_le_of_sq_le_sq hm2 (mul_nonneg hL.le hen)
    have h1 : |d| * (|d| * L) ≤ |d| * (L * edist Y q) := by
      calc |d| * (|d| * L) = d ^ 2 * L := by rw [← sq_abs d]; ring
        _ ≤ d * m := hY'
        _ ≤ |d| * |m| := by rw [← abs_mul]; exact le_abs_self _
        _ ≤ _ := mul_le_mul_of_nonneg_left hm3 (abs_nonneg d)
    have h2 := le_of_mul_le_mul_left h1 (abs_pos.mpr hd)
    exact le_of_mul_le_mul_left (by linarith) hL

theorem side_quad_arc (h : SegShape v w) (hd : d ≠ 0) (hl : ¬ IsLine v) (hr : 0 < offRadius v w d) :
    ∃ A B C D, (∀ t, quad A B C D (segCurve (parSeg v w d).1 (parSeg v w d).2 t) = 0) ∧
    (∀ t, QuadGrad A B C (segCurve (parSeg v w d).1 (parSeg v w d).2 t)) ∧ ∀ Y, 0 ≤ quad A B C D Y → ∀ q, OnSeg v w q → |d| ≤ edist Y q := by
  have hb := bulge_ne_zero hl
  have hr0 := arcRadius_pos h.ne hb
  have hpt := fun t => arcPoint_dist_sq v.pos w.pos v.bulge t hb
  have hpe := fun t => arcPoint_edist v.pos w.pos v.bulge t hb
  have hpar := par_arc h hl d
  obtain ⟨e, he, hoff⟩ : ∃ e, |e| = |d| ∧ offRadius v w d = arcRadius v.pos w.pos v.bulge + e := by
    unfold offRadius
    split_ifs
    · exact ⟨d, rfl, rfl⟩
    · exact ⟨-d, abs_neg d, rfl⟩
  have he0 : e ≠ 0 := by rw [← abs_pos, he]; exact abs_pos.mpr hd
  set c := arcCenter v.pos w.pos v.bulge with hc
  set ρ := arcRadius v.pos w.pos v.bulge with hρ
  set ρ' := offRadius v w d with hρ'
  have hq : ∀ Y, quad e (-2 * e * c.x) (-2 * e * c.y) (e * (c.x ^ 2 + c.y ^ 2 - ρ' ^ 2)) Y = e * ((Y.x - c.x) ^ 2 + (Y.y - c.y) ^ 2 - ρ' ^ 2) := by
    intro Y; unfold quad; ring
  have hcirc : ∀ t, ((segCurve (parSeg v w d).1 (parSeg v w d).2 t).x - c.x) ^ 2 + ((segCurve (parSeg v w d).1 (parSeg v w d).2 t).y - c.y) ^ 2 = ρ' ^ 2 := by
    intro t
    rw [hpar]
    dsimp only
    have h1 : ρ' / ρ * ρ = ρ' := by field_simp
    calc _ = (ρ' / ρ) ^ 2 * (((arcPoint v.pos w.pos v.bulge t).x - c.x) ^ 2 + ((arcPoint v.pos w.pos v.bulge t).y - c.y) ^ 2) := by ring
      _ = _ := by rw [hpt, ← mul_pow, h1]
  refine ⟨e, -2 * e * c.x, -2 * e * c.y, e * (c.x ^ 2 + c.y ^ 2 - ρ' ^ 2), fun t => ?_, fun t => ?_, fun Y hY q hq' => ?_⟩
  · rw [hq, hcirc, sub_self, mul_zero]
  · have := hcirc t
    unfold QuadGrad
    by_contra hcon
    push Not at hcon
    obtain ⟨h1, h2⟩ := hcon
    set Z := segCurve (parSeg v w d).1 (parSeg v w d).2 t
    have e1 : Z.x - c.x = 0 := by
      rcases mul_eq_zero.mp (show e * (Z.x - c.x) = 0 by linarith) with h | h
      · exact absurd h he0
      · exact h
    have e2 : Z.y - c.y = 0 := by
      rcases mul_eq_zero.mp (show e * (Z.y - c.y) = 0 by linarith) with h | h
      · exact absurd h he0
      · exact h
    rw [e1, e2] at this
    have := pow_pos hr 2
    linarith
  · obtain ⟨t, t0, t1, rfl⟩ := hq'
    rw [segCurve_arc hl]
    rw [hq] at hY
    have hYc := edist_sq Y c
    have hYn := edist_nonneg Y c
    have hpe' := hpe t
    set Z := arcPoint v.pos w.pos v.bulge t
    have htri1 : edist Y c ≤ edist Y Z + edist Z c := edist_triangle Y Z c
    have htri2 : edist Z c ≤ edist Z Y + edist Y c := edist_triangle Z Y c
    rw [hpe'] at htri1 htri2
    rw [edist_comm Z Y] at htri2
    rw [← hYc] at hY
    rw [← he]
    rcases lt_or_gt_of_ne he0 with hneg | hpos
    · rw [abs_of_neg hneg]
      have : edist Y c ^ 2 ≤ ρ' ^ 2 := by
        by_contra hcon
        have := mul_neg_of_neg_of_pos hneg (sub_pos.mpr (not_le.mp hcon))
        linarith
      have := abs_le_of_sq_le_sq this hr.le
      rw [abs_of_nonneg hYn] at this
      linarith
    · rw [abs_of_pos hpos]
      have : ρ' ^ 2 ≤ edist Y c ^ 2 := by
        by_contra hcon
        have := mul_neg_of_pos_of_neg hpos (sub_neg.mpr (not_le.mp hcon))
        linarith
      have := abs_le_of_sq_le_sq this hYn
      rw [abs_of_pos hr] at this
      linarith

theorem side_quad (h : SegShape v w) (hd : d ≠ 0) (hr : IsLine v ∨ 0 < offRadius v w d) :
    ∃ A B C D, (∀ t, quad A B C D (segCurve (parSeg v w d).1 (parSeg v w d).2 t) = 0) ∧
    (∀ t, QuadGrad A B C (segCurve (parSeg v w d).1 (parSeg v w d).2 t)) ∧ ∀ Y, 0 ≤ quad A B C D Y → ∀ q, OnSeg v w q → |d| ≤ edist Y q := by
  by_cases hl : IsLine v
  · exact side_quad_line h hd hl
  · exact side_quad_arc h hd hl (hr.resolve_left hl)

end

/-- the circle around a point -/
theorem round_quad {d : ℝ} (hd : d ≠ 0) (V : V2 ℝ) : ∃ A B C D, (∀ Z, edist Z V = |d| → quad A B C D Z = 0 ∧ QuadGrad A B C Z) ∧
    ∀ Y, 0 ≤ quad A B C D Y → |d| ≤ edist Y V := by
  have hq : ∀ Y, quad 1 (-2 * V.x) (-2 * V.y) (V.x ^ 2 + V.y ^ 2 - d ^ 2) Y = edist Y V ^ 2 - d ^ 2 := by
    intro Y; rw [edist_sq]; unfold quad; ring
  refine ⟨1, -2 * V.x, -2 * V.y, V.x ^ 2 + V.y ^ 2 - d ^ 2, fun Z hZ => ⟨by rw [hq, hZ, sq_abs, sub_self], ?_⟩, fun Y hY => ?_⟩
  · have := edist_sq Z V
    rw [hZ, sq_abs] at this
    unfold QuadGrad
    by_contra hcon
    push Not at hcon
    obtain ⟨h1, h2⟩ := hcon
    rw [show Z.x - V.x = 0 by linarith, show Z.y - V.y = 0 by linarith] at this
    exact hd (pow_eq_zero_iff two_ne_zero |>.mp (by linarith))
  · rw [hq, ← sq_abs d] at hY
    have := abs_le_of_sq_le_sq (show |d| ^ 2 ≤ edist Y V ^ 2 by linarith) (edist_nonneg _ _)
    rwa [abs_abs] at this

section
variable {A B C D : ℝ} {f g : ℝ → V2 ℝ} {a b a' b' t u : ℝ}

/-- A curve that crosses the zeros of the function at an angle gets to where the function is positive, in one direction. -/
theorem quad_sides (hf1 : HasDerivAt (fun s => (f s).x) a t) (hf2 : HasDerivAt (fun s => (f s).y) b t)
    (hg1 : HasDerivAt (fun s => (g s).x) a' u) (hg2 : HasDerivAt (fun s => (g s).y) b' u) (hX : f t = g u) (hang : a * b' - b * a' ≠ 0)
    (hz : ∀ s, quad A B C D (g s) = 0) (hG : QuadGrad A B C (g u)) :
    ∃ σ : ℝ, (σ = 1 ∨ σ = -1) ∧ ∀ᶠ s in nhdsWithin 0 (Set.Ioi 0), 0 ≤ quad A B C D (f (t + σ * s)) := by
  have h1 := quad_along A B C D hf1 hf2
  have h2 := quad_along A B C D hg1 hg2
  have h3 : HasDerivAt (fun s => quad A B C D (g s)) 0 u := by simp only [hz]; exact hasDerivAt_const _ _
  have h4 := h2.unique h3
  rw [hX] at h1
  set gx := 2 * A * (g u).x + B with hgx
  set gy := 2 * A * (g u).y + C with hgy
  have hne : gx * a + gy * b ≠ 0 := by
    intro h0
    apply hang
    rcases hG with hG | hG
    · refine (mul_eq_zero.mp (show gx * (a * b' - b * a') = 0 by linear_combination b' * h0 - b * h4)).resolve_left hG
    · refine (mul_eq_zero.mp (show gy * (a * b' - b * a') = 0 by linear_combination -a' * h0 + a * h4)).resolve_left hG
  have hz0 : quad A B C D (f t) = 0 := by rw [hX]; exact hz u
  have key : ∀ σ : ℝ, 0 < σ * (gx * a + gy * b) → ∀ᶠ s in nhdsWithin 0 (Set.Ioi 0), 0 ≤ quad A B C D (f (t + σ * s)) := by
    intro σ hσ
    have hl : HasDerivAt (fun s : ℝ => t + σ * s) σ 0 := by
      simpa using ((hasDerivAt_id (0 : ℝ)).const_mul σ).const_add t
    have hc := HasDerivAt.comp (h := fun s : ℝ => t + σ * s) (h₂ := fun s => quad A B C D (f s)) (0 : ℝ) (by simpa using h1) hl
    refine (pos_after hc (by simpa using hz0) (by linarith)).mono fun s hs => hs.le
  rcases lt_or_gt_of_ne hne with h | h
  · exact ⟨-1, Or.inr rfl, key _ (by linarith)⟩
  · exact ⟨1, Or.inl rfl, key _ (by linarith)⟩

end

end Cavc
