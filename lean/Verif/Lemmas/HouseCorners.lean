import Verif.Lemmas.HouseOffset
import Verif.Lemmas.ParallelCurve

/-! # Example: the corners of the square with a half disc on top -/

namespace Cavc
open RealScalar Pline

theorem ho_near {X Q : V2 ℝ} (hQ : OnPline house Q) (h : (X.x - Q.x) ^ 2 + (X.y - Q.y) ^ 2 < 9) : ¬ Keeps house |3| X := by
  intro hk
  have := hk Q hQ
  rw [abs_of_pos (by norm_num)] at this
  have h2 := edist_sq X Q
  nlinarith

theorem ho_on {k : Nat} (u : ℝ) (u0 : 0 ≤ u) (u1 : u ≤ 1) : OnPline house (curveAt house k u) := by
  rw [curveAt_vtx (by decide)]
  exact side_on ho_full k u0 u1

theorem turnSin_quot (a v b : V2 ℝ) : turnSin a v b = ((v.x - a.x) * (b.y - v.y) - (v.y - a.y) * (b.x - v.x)) / (edist a v * edist v b) := by
  unfold turnSin
  rw [div_mul_div_comm, div_mul_div_comm, ← sub_div]

theorem ho_dir : segDir (vtx house 0) (vtx house 1) 1 = ⟨16, 0⟩ ∧ segDir (vtx house 1) (vtx house 2) 0 = ⟨0, 5⟩ ∧ segDir (vtx house 1) (vtx house 2) 1 = ⟨0, 5⟩ ∧
    segDir (vtx house 2) (vtx house 3) 0 = ⟨0, 16⟩ ∧ segDir (vtx house 2) (vtx house 3) 1 = ⟨0, -16⟩ ∧ segDir (vtx house 3) (vtx house 4) 0 = ⟨0, -5⟩ ∧
    segDir (vtx house 3) (vtx house 4) 1 = ⟨0, -5⟩ ∧ segDir (vtx house 4) (vtx house 5) 0 = ⟨16, 0⟩ := by
  have hl : ∀ x y : ℝ, IsLine ⟨x, y, 0⟩ := box4_line
  have ha : ¬ IsLine ⟨16, 5, 1⟩ := by rw [← ho_v2]; exact ho_arc
  simp only [ho_v0, ho_v1, ho_v2, ho_v3, ho_v4, ho_v5]
  unfold segDir
  simp only [hl, ha, if_true, if_false, Real.arctan_one, rotV, V2.mk.injEq]
  have e1 : (2 * 0 - 1) * (2 * (Real.pi / 4)) = -(Real.pi / 2) := by ring
  have e2 : (2 * 1 - 1) * (2 * (Real.pi / 4)) = Real.pi / 2 := by ring
  rw [e1, e2, Real.cos_neg, Real.sin_neg, Real.cos_pi_div_two, Real.sin_pi_div_two]
  norm_num

theorem hoIn_clean : CleanCorners house 3 hoIn := by
  obtain ⟨d0, d1, d1', d2, d2', d3, d3', d4⟩ := ho_dir
  have hs : ∀ k < 4, 0 ≤ 3 * cornerSin house k := by
    intro k hk
    refine mul_nonneg (by norm_num) ?_
    unfold cornerSin
    rw [turnSin_quot]
    unfold arriveFrom departTo
    refine div_nonneg ?_ (mul_nonneg (edist_nonneg _ _) (edist_nonneg _ _))
    interval_cases k <;> simp only [Nat.reduceAdd, d0, d1, d1', d2, d2', d3, d3', d4] <;> norm_num
  intro k hk
  have hk4 : k < 4 := hk
  interval_cases k
  · refine .cut _ _ (hs 0 hk) (fun s h1 h2 => ?_) (fun s h1 h2 => ?_)
    · rw [(ho_curve s).1]
      refine ho_near (ho_on (k := 1) (3 / 5) (by norm_num) (by norm_num)) ?_
      rw [(ho_side _).2.1]
      norm_num
      nlinarith
    · rw [(ho_curve s).2.1]
      refine ho_near (ho_on (k := 0) (13 / 16) (by norm_num) (by norm_num)) ?_
      rw [(ho_side _).1]
      norm_num
      nlinarith
  · exact .cut _ _ (hs 1 hk) (fun s h1 h2 => absurd h1 (not_lt.mpr h2)) (fun s h1 h2 => absurd h1 (not_le.mpr h2))
  · exact .cut _ _ (hs 2 hk) (fun s h1 h2 => absurd h1 (not_lt.mpr h2)) (fun s h1 h2 => absurd h1 (not_le.mpr h2))
  · refine .cut _ _ (hs 3 hk) (fun s h1 h2 => ?_) (fun s h1 h2 => ?_)
    · rw [(ho_curve s).2.2.2]
      refine ho_near (ho_on (k := 0) (3 / 16) (by norm_num) (by norm_num)) ?_
      rw [(ho_side _).1]
      norm_num
      nlinarith
    · have e : parCurve house 3 (3 + 1) = parCurve house 3 0 := by rw [← parCurve_mod house 3 (3 + 1)]; rfl
      rw [e, (ho_curve s).1]
      refine ho_near (ho_on (k := 3) (2 / 5) (by norm_num) (by norm_num)) ?_
      rw [(ho_side _).2.2.2]
      norm_num
      nlinarith

end Cavc
