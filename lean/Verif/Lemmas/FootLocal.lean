import Verif.Lemmas.SegFrame
import Verif.Lemmas.SimpleArcs

/-! # Nearest points of a curve -/

set_option linter.unusedVariables false

namespace Cavc
open Topology Filter

/-- A curve that starts at `V` in the direction `D`. -/
structure Ray (f : ℝ → V2 ℝ) (V D : V2 ℝ) : Prop where
  start : f 0 = V
  dx : HasDerivAt (fun s => (f s).x) D.x 0
  dy : HasDerivAt (fun s => (f s).y) D.y 0

theorem sq_le_edist {r : ℝ} {X Y : V2 ℝ} (hr : 0 ≤ r) : r ≤ edist X Y ↔ r ^ 2 ≤ (X.x - Y.x) ^ 2 + (X.y - Y.y) ^ 2 := by
  rw [← edist_sq, pow_le_pow_iff_left₀ hr (edist_nonneg _ _) (by norm_num)]

/-- the square of the distance along a curve -/
theorem dist_deriv {f : ℝ → V2 ℝ} {a b t : ℝ} (hx : HasDerivAt (fun s => (f s).x) a t) (hy : HasDerivAt (fun s => (f s).y) b t) (X : V2 ℝ) :
    HasDerivAt (fun s => (X.x - (f s).x) ^ 2 + (X.y - (f s).y) ^ 2) (-2 * ((X.x - (f t).x) * a + (X.y - (f t).y) * b)) t := by
  have h := ((hx.const_sub X.x).pow 2).add ((hy.const_sub X.y).pow 2)
  refine h.congr_deriv ?_
  simp only [Nat.cast_ofNat, pow_one, Nat.add_one_sub_one]
  ring

/-- A nearest point inside a curve: the curve is at a right angle there. -/
theorem foot_inside {f : ℝ → V2 ℝ} {a b u r : ℝ} (hx : HasDerivAt (fun s => (f s).x) a u) (hy : HasDerivAt (fun s => (f s).y) b u) {X : V2 ℝ} (h0 : 0 < u) (h1 : u < 1)
    (hr : 0 ≤ r) (hf : ∀ s, 0 ≤ s → s ≤ 1 → r ≤ edist X (f s)) (hu : edist X (f u) = r) : (X.x - (f u).x) * a + (X.y - (f u).y) * b = 0 := by
  have hd := dist_deriv hx hy X
  have hm : IsLocalMin (fun s => (X.x - (f s).x) ^ 2 + (X.y - (f s).y) ^ 2) u := by
    filter_upwards [Ioo_mem_nhds h0 h1] with s hs
    have := (sq_le_edist hr).mp (hf s hs.1.le hs.2.le)
    rw [← hu, edist_sq] at this
    exact this
  have := hm.hasDerivAt_eq_zero hd
  linarith

/-- A nearest point at the start of a curve: the curve does not lead nearer. -/
theorem foot_start {f : ℝ → V2 ℝ} {V D X : V2 ℝ} {r : ℝ} (h : Ray f V D) (hr : 0 ≤ r) (hf : ∀ s, 0 ≤ s → s ≤ 1 → r ≤ edist X (f s)) (hu : edist X V = r) :
    (X.x - V.x) * D.x + (X.y - V.y) * D.y ≤ 0 := by
  by_contra hc
  push Not at hc
  have hd := (dist_deriv h.dx h.dy X).const_sub (r ^ 2)
  rw [h.start] at hd
  have := pos_after hd (by rw [h.start, ← edist_sq, hu, sub_self]) (by linarith)
  obtain ⟨s, hs, h0, h1⟩ := (this.and (Ioo_mem_nhdsGT (zero_lt_one' ℝ))).exists
  have := (sq_le_edist hr).mp (hf s h0.le h1.le)
  linarith

/-- If a curve leads away from `X`, then near `X` and near its start the start is the nearest point. -/
theorem leads_away {f : ℝ → V2 ℝ} {V D X : V2 ℝ} (h : Ray f V D) (hX : (X.x - V.x) * D.x + (X.y - V.y) * D.y < 0) :
    ∃ δ > 0, ∀ Y, edist Y X < δ → ∀ s, 0 ≤ s → s < δ → edist Y V ≤ edist Y (f s) := by
  have cx := continuousAt_dslope_same.mpr h.dx.differentiableAt
  have cy := continuousAt_dslope_same.mpr h.dy.differentiableAt
  set g : ℝ × ℝ × ℝ → ℝ := fun z => (z.1 - V.x) * dslope (fun s => (f s).x) 0 z.2.2 + (z.2.1 - V.y) * dslope (fun s => (f s).y) 0 z.2.2 with hg
  have hc : ContinuousAt g (X.x, X.y, 0) := by
    have p3 : ContinuousAt (fun z : ℝ × ℝ × ℝ => z.2.2) (X.x, X.y, 0) := by fun_prop
    have e1 : ContinuousAt (fun z : ℝ × ℝ × ℝ => dslope (fun s => (f s).x) 0 z.2.2) (X.x, X.y, 0) := ContinuousAt.comp (f := fun z : ℝ × ℝ × ℝ => z.2.2) (g := dslope (fun s => (f s).x) 0) cx p3
    have e2 : ContinuousAt (fun z : ℝ × ℝ × ℝ => dslope (fun s => (f s).y) 0 z.2.2) (X.x, X.y, 0) := ContinuousAt.comp (f := fun z : ℝ × ℝ × ℝ => z.2.2) (g := dslope (fun s => (f s).y) 0) cy p3
    exact ((by fun_prop : ContinuousAt (fun z : ℝ × ℝ × ℝ => z.1 - V.x) (X.x, X.y, 0)).mul e1).add ((by fun_prop : ContinuousAt (fun z : ℝ × ℝ × ℝ => z.2.1 - V.y) (X.x, X.y, 0)).mul e2)
  have h0 : g (X.x, X.y, 0) < 0 := by
    simp only [hg, dslope_same, h.dx.deriv, h.dy.deriv]
    exact hX
  obtain ⟨δ, hδ, hball⟩ := Metric.eventually_nhds_iff.mp (hc.eventually (gt_mem_nhds h0))
  refine ⟨δ, hδ, fun Y hY s hs0 hs => ?_⟩
  have hYX := edist_sq Y X
  have e0 := edist_nonneg Y X
  have a1 : |Y.x - X.x| ≤ edist Y X := abs_le_of_sq_le_sq (by nlinarith [sq_nonneg (Y.y - X.y)]) e0
  have a2 : |Y.y - X.y| ≤ edist Y X := abs_le_of_sq_le_sq (by nlinarith [sq_nonneg (Y.x - X.x)]) e0
  have hneg := @hball (Y.x, Y.y, s) (by
    rw [Prod.dist_eq, Prod.dist_eq, max_lt_iff, max_lt_iff]
    simp only [Real.dist_eq, sub_zero]
    exact ⟨by linarith, by linarith, by rwa [abs_of_nonneg hs0]⟩)
  rw [sq_le_edist (edist_nonneg _ _), edist_sq]
  have k1 := sub_smul_dslope (fun s => (f s).x) 0 s
  have k2 := sub_smul_dslope (fun s => (f s).y) 0 s
  simp only [sub_zero, smul_eq_mul, h.start] at k1 k2
  simp only [hg] at hneg
  set A := dslope (fun s => (f s).x) 0 s
  set B := dslope (fun s => (f s).y) 0 s
  have k1' : (f s).x = V.x + s * A := by linarith
  have k2' : (f s).y = V.y + s * B := by linarith
  rw [k1', k2']
  nlinarith [mul_nonneg hs0 (neg_nonneg.mpr hneg.le), sq_nonneg (s * A), sq_nonneg (s * B)]

/-- Points of the circle around the start of a curve, on the far side of its parallel point `V + m J D`. -/
theorem far_circle {f : ℝ → V2 ℝ} {V D : V2 ℝ} (h : Ray f V D) (hD : 0 < D.x ^ 2 + D.y ^ 2) {m : ℝ} {r : ℝ} (hr : 0 < r) (hm : m ^ 2 * (D.x ^ 2 + D.y ^ 2) = r ^ 2)
    (hf : ∀ s, 0 ≤ s → s ≤ 1 → r ≤ edist (⟨V.x - m * D.y, V.y + m * D.x⟩ : V2 ℝ) (f s)) :
    ∃ δ > 0, ∀ Y, edist Y V = r → (Y.x - V.x) * D.x + (Y.y - V.y) * D.y ≤ 0 → 0 ≤ m * ((Y.y - V.y) * D.x - (Y.x - V.x) * D.y) →
      ∀ s, 0 ≤ s → s < δ → r ≤ edist Y (f s) := by
  have hd : HasDerivAt (fun s => D.x * ((f s).x - V.x) + D.y * ((f s).y - V.y)) (D.x * D.x + D.y * D.y) 0 :=
    ((h.dx.sub_const V.x).const_mul D.x).add ((h.dy.sub_const V.y).const_mul D.y)
  have := pos_after hd (by rw [h.start]; ring) (by nlinarith)
  obtain ⟨δ, hδ, hp⟩ := Metric.mem_nhdsWithin_iff.mp this
  refine ⟨min δ 1, lt_min hδ one_pos, fun Y hY h1 h2 s hs0 hs => ?_⟩
  obtain ⟨l1, l2⟩ := lt_min_iff.mp hs
  have hpos : 0 ≤ D.x * ((f s).x - V.x) + D.y * ((f s).y - V.y) := by
    rcases hs0.eq_or_lt with rfl | h0
    · rw [h.start]; simp
    · have hz : s ∈ {u | 0 < D.x * ((f u).x - V.x) + D.y * ((f u).y - V.y)} := hp ⟨by rw [Metric.mem_ball, Real.dist_eq, sub_zero, abs_of_pos h0]; exact l1, h0⟩
      exact le_of_lt hz
  have hQ := (sq_le_edist hr.le).mp (hf s hs0 l2.le)
  rw [sq_le_edist hr.le]
  have hYV : (Y.x - V.x) ^ 2 + (Y.y - V.y) ^ 2 = r ^ 2 := by rw [← edist_sq, hY]
  dsimp only at hQ
  obtain ⟨x, hx⟩ : ∃ x, x = Y.x - V.x := ⟨_, rfl⟩
  obtain ⟨y, hy⟩ : ∃ y, y = Y.y - V.y := ⟨_, rfl⟩
  obtain ⟨g, hg⟩ : ∃ g, g = (f s).x - V.x := ⟨_, rfl⟩
  obtain ⟨k, hk⟩ : ∃ k, k = (f s).y - V.y := ⟨_, rfl⟩
  rw [← hx, ← hy] at h1 h2 hYV
  rw [← hg, ← hk] at hpos
  have e1 : Y.x - (f s).x = x - g := by rw [hx, hg]; ring
  have e2 : Y.y - (f s).y = y - k := by rw [hy, hk]; ring
  have e3 : V.x - m * D.y - (f s).x = -(m * D.y) - g := by rw [hg]; ring
  have e4 : V.y + m * D.x - (f s).y = m * D.x - k := by rw [hk]; ring
  rw [e3, e4] at hQ
  rw [e1, e2]
  set P := D.x with hP
  set R := D.y with hR
  set N := P ^ 2 + R ^ 2 with hN
  -- α = m (y P - x R) / r^2
  have hQ' : 0 ≤ g ^ 2 + k ^ 2 - 2 * (m * (P * k - R * g)) := by nlinarith
  have hid : N * (x * g + y * k) = (y * P - x * R) * (P * k - R * g) + (x * P + y * R) * (P * g + R * k) := by rw [hN]; ring
  have hr2 : 0 < r ^ 2 := by positivity
  have hle : m * (y * P - x * R) ≤ r ^ 2 := by
    have hb : (m * (y * P - x * R)) ^ 2 ≤ (r ^ 2) ^ 2 := by
      have : (y * P - x * R) ^ 2 ≤ N * r ^ 2 := by rw [← hYV, hN]; nlinarith [sq_nonneg (x * P + y * R)]
      calc (m * (y * P - x * R)) ^ 2 = m ^ 2 * (y * P - x * R) ^ 2 := by ring
        _ ≤ m ^ 2 * (N * r ^ 2) := mul_le_mul_of_nonneg_left this (sq_nonneg m)
        _ = (r ^ 2) ^ 2 := by rw [← mul_assoc, hm]; ring
    exact (abs_le_of_sq_le_sq' hb hr2.le).2
  set α := m * (y * P - x * R) with hα
  have key : r ^ 2 * N * (g ^ 2 + k ^ 2 - 2 * (x * g + y * k)) = N * (α * (g ^ 2 + k ^ 2 - 2 * (m * (P * k - R * g))) + (r ^ 2 - α) * (g ^ 2 + k ^ 2)) + 2 * r ^ 2 * (-(x * P + y * R)) * (P * g + R * k) := by
    have : r ^ 2 * N * (x * g + y * k) = r ^ 2 * (y * P - x * R) * (P * k - R * g) + r ^ 2 * (x * P + y * R) * (P * g + R * k) := by
      rw [mul_assoc, hid]; ring
    have h2 : N * α * (m * (P * k - R * g)) = r ^ 2 * ((y * P - x * R) * (P * k - R * g)) := by
      rw [hα, ← hm]; ring
    linear_combination -2 * this + 2 * h2
  have hnn : 0 ≤ r ^ 2 * N * (g ^ 2 + k ^ 2 - 2 * (x * g + y * k)) := by
    rw [key]
    have t1 := mul_nonneg h2 hQ'
    have t2 := mul_nonneg (sub_nonneg.mpr hle) (add_nonneg (sq_nonneg g) (sq_nonneg k))
    have t3 := mul_nonneg (neg_nonneg.mpr h1) hpos
    have t4 := mul_nonneg hD.le (add_nonneg t1 t2)
    have t5 := mul_nonneg hr2.le t3
    have e5 : 2 * r ^ 2 * (-(x * P + y * R)) * (P * g + R * k) = 2 * (r ^ 2 * (-(x * P + y * R) * (P * g + R * k))) := by ring
    rw [e5]
    linarith
  have := nonneg_of_mul_nonneg_right hnn (mul_pos hr2 hD)
  nlinarith

end Cavc
