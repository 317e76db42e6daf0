import Verif.Lemmas.HouseCorners
import Verif.Lemmas.RawKeeps

/-! # Example: the two sides of the square with a half disc on top -/

namespace Cavc
open RealScalar Pline

theorem ho_segCurve (k : Nat) (u : ℝ) : segCurve (vtx house k) (vtx house (k + 1)) u = curveAt house k u := (curveAt_vtx (by decide) k u).symm

theorem ho_far {X : V2 ℝ} {k : Nat} (h : ∀ u, 0 ≤ u → u ≤ 1 → 9 ≤ (X.x - (curveAt house k u).x) ^ 2 + (X.y - (curveAt house k u).y) ^ 2) : FarSeg house |3| X k := by
  rintro q ⟨u, u0, u1, rfl⟩
  rw [abs_of_pos (by norm_num), ho_segCurve]
  have h1 := h u u0 u1
  rw [← edist_sq] at h1
  nlinarith [edist_nonneg X (curveAt house k u)]

theorem turnCos_quot (a v b : V2 ℝ) : turnCos a v b = ((v.x - a.x) * (b.x - v.x) + (v.y - a.y) * (b.y - v.y)) / (edist a v * edist v b) := by
  unfold turnCos
  rw [div_mul_div_comm, div_mul_div_comm, ← add_div]

theorem ho_sin : 0 < cornerSin house 0 ∧ cornerSin house 1 = 0 ∧ cornerSin house 2 = 0 ∧ 0 < cornerSin house 3 ∧ 0 < cornerCos house 1 ∧ 0 < cornerCos house 2 := by
  obtain ⟨d0, d1, d1', d2, d2', d3, d3', d4⟩ := ho_dir
  have hp : ∀ k, 0 < edist (arriveFrom house k) (cornerPos house (k + 1)) * edist (cornerPos house (k + 1)) (departTo house k) := fun k =>
    mul_pos (edist_pos (arrive_ne ho_full (by norm_num) k)) (edist_pos (depart_ne ho_full (by norm_num) k))
  unfold cornerSin cornerCos
  simp only [turnSin_quot, turnCos_quot]
  refine ⟨div_pos ?_ (hp 0), div_eq_zero_iff.mpr (Or.inl ?_), div_eq_zero_iff.mpr (Or.inl ?_), div_pos ?_ (hp 3), div_pos ?_ (hp 1), div_pos ?_ (hp 2)⟩ <;>
    simp only [arriveFrom, departTo, Nat.reduceAdd, d0, d1, d1', d2, d2', d3, d3', d4] <;> norm_num

theorem hoIn_free : FreeCuts house 3 hoIn := by
  obtain ⟨s0, s1, s2, s3, c1, c2⟩ := ho_sin
  have e4 : parCurve house 3 4 = parCurve house 3 0 := by rw [← parCurve_mod house 3 4]; rfl
  have f4 : ∀ X, FarSeg house |3| X 0 → FarSeg house |3| X 4 := fun X h => (farSeg_same (by decide)).mp h
  refine ⟨fun k hk t u hc => ⟨1, one_pos, fun s h1 h2 => ?_⟩, fun k hk t u hc => ⟨1, one_pos, fun s h1 h2 => ?_⟩, fun k hk hz => ?_⟩
  · have hk4 : k < 4 := hk
    have hcc := ho_curve s
    interval_cases k
    · have : (13 / 16 : ℝ) = t := congrArg Corner.stop hc
      rw [hcc.1]
      refine ho_far fun v v0 v1 => ?_
      rw [(ho_side v).2.1]
      dsimp only
      nlinarith [sq_nonneg (3 - 5 * v)]
    · have : (1 : ℝ) = t := congrArg Corner.stop hc
      rw [hcc.2.1]
      refine ho_far fun v v0 v1 => ?_
      rw [(ho_side v).2.2.1]
      dsimp only
      have hs : 0 ≤ Real.sin (v * Real.pi) := Real.sin_nonneg_of_nonneg_of_le_pi (by positivity) (by nlinarith [Real.pi_pos])
      have hcs := Real.sin_sq_add_cos_sq (v * Real.pi)
      have hle := Real.cos_le_one (v * Real.pi)
      have hm := mul_nonneg (show 0 ≤ 1 - s by linarith) hs
      nlinarith [sq_nonneg (1 - s)]
    · have : (1 : ℝ) = t := congrArg Corner.stop hc
      rw [hcc.2.2.1]
      refine ho_far fun v v0 v1 => ?_
      rw [(ho_side v).2.2.2]
      dsimp only
      have hle := Real.neg_one_le_cos (s * Real.pi)
      nlinarith [sq_nonneg (5 + 5 * Real.sin (s * Real.pi) - (5 - 5 * v))]
    · have : (2 / 5 : ℝ) = t := congrArg Corner.stop hc
      rw [hcc.2.2.2]
      refine f4 _ (ho_far fun v v0 v1 => ?_)
      rw [(ho_side v).1]
      dsimp only
      nlinarith [sq_nonneg (3 - 16 * v)]
  · have hk4 : k < 4 := hk
    have hcc := ho_curve s
    interval_cases k
    · have : (3 / 5 : ℝ) = u := congrArg Corner.start hc
      rw [hcc.2.1]
      refine ho_far fun v v0 v1 => ?_
      rw [(ho_side v).1]
      dsimp only
      nlinarith [sq_nonneg (13 - 16 * v)]
    · rw [hcc.2.2.1]
      refine ho_far fun v v0 v1 => ?_
      rw [(ho_side v).2.1]
      dsimp only
      have hle := Real.cos_le_one (s * Real.pi)
      nlinarith [sq_nonneg (5 + 5 * Real.sin (s * Real.pi) - 5 * v)]
    · have : (0 : ℝ) = u := congrArg Corner.start hc
      rw [hcc.2.2.2]
      refine ho_far fun v v0 v1 => ?_
      rw [(ho_side v).2.2.1]
      dsimp only
      have hs : 0 ≤ Real.sin (v * Real.pi) := Real.sin_nonneg_of_nonneg_of_le_pi (by positivity) (by nlinarith [Real.pi_pos])
      have hcs := Real.sin_sq_add_cos_sq (v * Real.pi)
      have hle := Real.neg_one_le_cos (v * Real.pi)
      have hm := mul_nonneg (show 0 ≤ s by linarith) hs
      nlinarith [sq_nonneg s]
    · have : (3 / 16 : ℝ) = u := congrArg Corner.start hc
      show FarSeg house |3| (parCurve house 3 4 s) 3
      rw [e4, hcc.1]
      refine ho_far fun v v0 v1 => ?_
      rw [(ho_side v).2.2.2]
      dsimp only
      nlinarith [sq_nonneg (3 - (5 - 5 * v))]
  · have hk4 : k < 4 := hk
    interval_cases k
    · exact absurd hz s0.ne'
    · exact c1
    · exact c2
    · exact absurd hz s3.ne'

/-- the parallel curve on the inside -/
theorem ho_inside {X : V2 ℝ} (h : ParallelPt house 3 X) : 3 ≤ X.x ∧ X.x ≤ 13 ∧ 3 ≤ X.y ∧ X.y ≤ 10 := by
  obtain ⟨hon, -⟩ := (raw_parallel (by norm_num) hoIn_clear hoIn_clean X).mpr h
  rw [raw_points (run_facts (by norm_num) hoIn_clear)] at hon
  obtain ⟨e0, e1, e2, e3⟩ := ho_enter
  obtain ⟨l0, l1, l2, l3⟩ := ho_leave
  rcases hon with ⟨k, hk, t, h1, h2, rfl⟩ | ⟨k, hk, b, hb, -⟩
  · have hk4 : k < 4 := hk
    have hcc := ho_curve t
    interval_cases k
    · rw [e0] at h1; rw [l0] at h2; rw [hcc.1]; dsimp only
      refine ⟨?_, ?_, ?_, ?_⟩ <;> linarith
    · rw [e1] at h1; rw [l1] at h2; rw [hcc.2.1]; dsimp only
      refine ⟨?_, ?_, ?_, ?_⟩ <;> linarith
    · rw [e2] at h1; rw [l2] at h2; rw [hcc.2.2.1]; dsimp only
      have a1 := Real.cos_le_one (t * Real.pi)
      have a2 := Real.neg_one_le_cos (t * Real.pi)
      have a3 := Real.sin_le_one (t * Real.pi)
      have a4 : 0 ≤ Real.sin (t * Real.pi) := Real.sin_nonneg_of_nonneg_of_le_pi (by positivity) (by nlinarith [Real.pi_pos])
      refine ⟨?_, ?_, ?_, ?_⟩ <;> linarith
    · rw [e3] at h1; rw [l3] at h2; rw [hcc.2.2.2]; dsimp only
      refine ⟨?_, ?_, ?_, ?_⟩ <;> linarith
  · have hk4 : k < 4 := hk
    interval_cases k <;> simp [hoIn] at hb

theorem ho_one_sided : OneSidedCurve house 3 := by
  rintro X ⟨h1, h2⟩
  obtain ⟨a1, a2, a3, a4⟩ := ho_inside h1
  obtain ⟨s0, s1, s2, s3, -, -⟩ := ho_sin
  obtain ⟨p0, p1, p2, p3, p4, p5⟩ := ho_pos
  rcases h2.place with ⟨k, u, u0, u1, hX⟩ | ⟨k, t, hs, t0, t1, hX⟩
  · rw [← parCurve_mod] at hX
    have hk4 : k % house.verts.length < 4 := Nat.mod_lt _ (by decide)
    generalize k % house.verts.length = m at hX hk4
    have hsh := shapeAt ho_full (by norm_num) m
    interval_cases m
    · have e : X = _ := hX.trans (par_eq hsh (-3) u)
      have hl := ho_len.1
      unfold sideLen at hl
      rw [show edist (vtx house 0).pos (vtx house (0 + 1)).pos = 16 from hl, ho_segCurve, (ho_side u).1, segDir, if_pos (show IsLine (vtx house 0) from box4_line _ _)] at e
      rw [e] at a3
      simp only [ho_v0, ho_v1, Nat.zero_add] at a3
      norm_num at a3
    · have e : X = _ := hX.trans (par_eq hsh (-3) u)
      have hl := ho_len.2.1
      unfold sideLen at hl
      rw [show edist (vtx house 1).pos (vtx house (1 + 1)).pos = 5 from hl, ho_segCurve, (ho_side u).2.1, segDir, if_pos (show IsLine (vtx house 1) from box4_line _ _)] at e
      rw [e] at a2
      simp only [ho_v1, ho_v2, Nat.reduceAdd] at a2
      norm_num at a2
    · have hp : parAt house (-3) 2 = (⟨19, 5, 1⟩, ⟨-3, 5, 0⟩) := by
        unfold parAt parSeg
        rw [if_neg ho_arc, ho_v2, ho_v3]
        unfold offRadius Vertex.pos
        simp only [ho_radius]
        norm_num [arcCenter]
      unfold parCurve at hX
      rw [hp, segCurve_arc (by unfold IsLine; norm_num)] at hX
      have hd := arcPoint_dist_sq (⟨19, 5⟩ : V2 ℝ) ⟨-3, 5⟩ 1 u (by norm_num)
      have hc : arcCenter (⟨19, 5⟩ : V2 ℝ) ⟨-3, 5⟩ 1 = ⟨8, 5⟩ := by unfold arcCenter; norm_num
      have hr : arcRadius (⟨19, 5⟩ : V2 ℝ) ⟨-3, 5⟩ 1 = 11 := by
        unfold arcRadius
        rw [edist_lit _ _ 22 (by norm_num) (by norm_num)]
        norm_num
      rw [show arcPoint (⟨19, 5⟩ : V2 ℝ) ⟨-3, 5⟩ 1 u = X from hX.symm, hc, hr] at hd
      nlinarith
    · have e : X = _ := hX.trans (par_eq hsh (-3) u)
      have hl := ho_len.2.2.1
      unfold sideLen at hl
      rw [show edist (vtx house 3).pos (vtx house (3 + 1)).pos = 5 from hl, ho_segCurve, (ho_side u).2.2.2, segDir, if_pos (show IsLine (vtx house 3) from box4_line _ _)] at e
      rw [e] at a1
      simp only [ho_v3, ho_v4, Nat.reduceAdd] at a1
      norm_num at a1
  · rw [← roundArc_mod] at hX
    rw [← cornerSin_mod] at hs
    have hk4 : k % house.verts.length < 4 := Nat.mod_lt _ (by decide)
    generalize k % house.verts.length = m at hX hk4 hs
    have hd := cornerArc_dist (b := departTo house m) (arrive_ne ho_full (by norm_num) m) (-3) t
    rw [show cornerArc _ _ _ _ _ = X from hX.symm] at hd
    have hd2 := edist_sq X (cornerPos house (m + 1))
    rw [hd, sq_abs] at hd2
    interval_cases m
    · rw [p1] at hd2; dsimp only at hd2; nlinarith
    · rw [s1] at hs; norm_num at hs
    · rw [s2] at hs; norm_num at hs
    · rw [p4] at hd2; dsimp only at hd2; nlinarith

end Cavc
