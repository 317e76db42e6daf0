import Verif.Lemmas.OpenKeeps

/-! # Example: how the raw offset of the hook is crossed -/

set_option linter.unusedVariables false

namespace Cavc
open RealScalar Pline

theorem hk_frame (k : Nat) (hk : k < 3) : arriveFrom hook k = cornerPos hook k ∧ departTo hook k = cornerPos hook (k + 2) := by
  constructor
  · unfold arriveFrom segDir
    rw [if_pos (hk_line k (by omega)), V2.ext_iff']
    simp [cornerPos, Vertex.pos]
  · unfold departTo segDir
    rw [if_pos (hk_line (k + 1) (by omega)), V2.ext_iff']
    simp [cornerPos, Vertex.pos]

theorem hk_out_clean : CleanPath hook (-25) hkOut := by
  intro k hk
  rw [hk_len5] at hk
  have hk3 : k < 3 := by omega
  obtain ⟨ha, hd⟩ := hk_frame k hk3
  have e : cornerHalf hook k = halfTurn (cornerPos hook k) (cornerPos hook (k + 1)) (cornerPos hook (k + 2)) := by
    unfold cornerHalf; rw [ha, hd]
  have : hkOut k = .link (Real.tan (cornerHalf hook k / 2)) := by unfold hkOut; rw [e]
  rw [this]
  refine .round (by rw [hk_cornerSin k hk3]; norm_num) ?_
  rw [e, hk_half k hk3]
  change _ ≤ |qb|
  rw [abs_of_pos qb_pos]
  linarith [qb_bounds.1]

theorem hk_far {k : Nat} {X : V2 ℝ} (h : ∀ u, 0 ≤ u → u ≤ 1 → 625 ≤ (X.x - (curveAt hook k u).x) ^ 2 + (X.y - (curveAt hook k u).y) ^ 2) : FarSeg hook |25| X k := by
  rintro q ⟨u, u0, u1, rfl⟩
  have h0 := h u u0 u1
  rw [curveAt_vtx (by decide)] at h0
  rw [abs_of_pos (by norm_num : (0 : ℝ) < 25)]
  rw [← edist_sq] at h0
  by_contra hlt
  nlinarith [edist_nonneg X (segCurve (vtx hook k) (vtx hook (k + 1)) u)]

theorem hk_in_free : FreePath hook 25 hkIn := by
  obtain ⟨l0, l1, l2, l3⟩ := hk_sides
  refine ⟨fun k hk t u hc => ⟨1, one_pos, fun s h1 h2 => ?_⟩, fun k hk t u hc => ⟨1 / 100, by norm_num, fun s h1 h2 => ?_⟩, fun k hk h => ?_⟩
  · rw [hk_len5] at hk
    unfold hkIn at hc
    injection hc with e1 e2
    rw [hk_setback 25 k (by omega)] at e1
    obtain ⟨c0, c1, c2, c3⟩ := hk_curves 25 s
    refine hk_far fun v v0 v1 => ?_
    change 625 ≤ ((segCurve (parAt hook 25 k).1 (parAt hook 25 k).2 s).x - _) ^ 2 + ((segCurve (parAt hook 25 k).1 (parAt hook 25 k).2 s).y - _) ^ 2
    obtain ⟨d0, d1, d2, d3⟩ := hk_curve v
    obtain rfl | rfl | rfl : k = 0 ∨ k = 1 ∨ k = 2 := by omega
    · rw [l0] at e1; rw [c0, d1]; dsimp only; nlinarith [sq_nonneg (25 - 100 * v)]
    · rw [l1] at e1; rw [c1, d2]; dsimp only; nlinarith [sq_nonneg (75 - (100 - 60 * v))]
    · rw [l2] at e1; rw [c2, d3]; dsimp only; nlinarith [sq_nonneg (75 - (100 - 60 * v))]
  · rw [hk_len5] at hk
    unfold hkIn at hc
    injection hc with e1 e2
    rw [hk_setback 25 k (by omega)] at e2
    obtain ⟨c0, c1, c2, c3⟩ := hk_curves 25 s
    refine hk_far fun v v0 v1 => ?_
    change 625 ≤ ((segCurve (parAt hook 25 (k + 1)).1 (parAt hook 25 (k + 1)).2 s).x - _) ^ 2 + ((segCurve (parAt hook 25 (k + 1)).1 (parAt hook 25 (k + 1)).2 s).y - _) ^ 2
    obtain ⟨d0, d1, d2, d3⟩ := hk_curve v
    obtain rfl | rfl | rfl : k = 0 ∨ k = 1 ∨ k = 2 := by omega
    · rw [l1] at e2; rw [c1, d0]; dsimp only; nlinarith [sq_nonneg (75 - 100 * v)]
    · rw [l2] at e2; rw [c2, d1]; dsimp only; nlinarith [sq_nonneg (75 - 100 * v)]
    · rw [l3] at e2; rw [c3, d2]; dsimp only; nlinarith [sq_nonneg (65 - (100 - 60 * v))]
  · rw [hk_len5] at hk
    rw [hk_cornerSin k (by omega)] at h
    norm_num at h

theorem hk_ends : EndsFree hook hkR |25| := by
  have hcv := hkR_curve
  rw [abs_of_pos (by norm_num : (0 : ℝ) < 25)]
  constructor
  · intro v hv h
    have hv : (⟨40, 40, 0⟩ : Vertex ℝ) = v := by simpa [hook] using hv
    subst hv
    have h2 := edist_sq (curveAt hkR 0 0) (Vertex.pos ⟨40, 40, 0⟩)
    rw [h, (hcv 0).1] at h2
    norm_num [Vertex.pos] at h2
  · intro v hv h
    have hv : (⟨0, 0, 0⟩ : Vertex ℝ) = v := by simpa [hook] using hv
    subst hv
    have h2 := edist_sq (curveAt hkR 3 1) (Vertex.pos ⟨0, 0, 0⟩)
    rw [show curveAt hkR (hkR.verts.length - 2) 1 = curveAt hkR 3 1 from rfl] at h
    rw [h, (hcv 1).2.2.2] at h2
    norm_num [Vertex.pos] at h2

/-- the circle around the end of the hook crosses the raw offset at both cuts -/
theorem hk_kinds : ∀ a ∈ hkCuts, CutKind hook hkR hkD |25| hkCuts a := by
  have hcv := hkR_curve
  have e25 : |(25 : ℝ)| = 25 := abs_of_pos (by norm_num)
  rintro ⟨i, t⟩ ha
  obtain ⟨rfl, ht⟩ := hk_cut.mp ha
  have hX := (hcv t).1
  refine .circle ⟨40, 40, 0⟩ (hk_isEnd.mpr (Or.inr rfl)) ?_ ?_ ?_ ?_ ?_
  · dsimp only
    rw [hX, e25]
    rcases ht with rfl | rfl <;> apply edist_lit <;> norm_num [Vertex.pos]
  · intro w hw h
    rcases hk_isEnd.mp hw with rfl | rfl
    · exfalso
      dsimp only at h
      have h2 := edist_sq (curveAt hkR 0 t) (Vertex.pos ⟨0, 0, 0⟩)
      rw [h, e25, hX] at h2
      rcases ht with rfl | rfl <;> norm_num [Vertex.pos] at h2
    · rfl
  · intro a b h1 h2
    have g1 : HasDerivAt (fun s => (curveAt hkR 0 s).x) 75 t := by
      simp only [(hcv _).1]
      simpa using (hasDerivAt_id t).const_mul 75
    have g2 : HasDerivAt (fun s => (curveAt hkR 0 s).y) 0 t := by
      simp only [(hcv _).1]
      exact hasDerivAt_const _ _
    rw [h1.unique g1, h2.unique g2]
    dsimp only
    rw [hX]
    rcases ht with rfl | rfl <;> norm_num [Vertex.pos]
  · rintro ⟨j, u⟩ hb h
    obtain ⟨rfl, -⟩ := hk_cut.mp hb
    dsimp only at h
    rw [hX, (hcv u).1] at h
    injection h with h _
    rw [show u = t by linarith]
  · exact hk_no_common 0 (by norm_num) (by rcases ht with rfl | rfl <;> norm_num) (by rcases ht with rfl | rfl <;> norm_num)

end Cavc
