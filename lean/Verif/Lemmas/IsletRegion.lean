import Verif.Props.ShapeOffset
import Verif.Props.SimpleLoop
import Verif.Lemmas.ShapeFollows

/-! # The island in the bay: the hypotheses about the region of its offset -/

set_option linter.unusedVariables false

namespace Cavc
open Pline RealScalar

theorem line_segW (z : ℝ × ℝ) (x y x' y' b : ℝ) : segW z (⟨x, y, 0⟩, ⟨x', y', b⟩) =
    if y ≤ z.2 then (if z.2 < y' ∧ 0 < (x' - x) * (z.2 - y) - (y' - y) * (z.1 - x) then 1 else 0)
    else if y' ≤ z.2 ∧ ¬ 0 < (x' - x) * (z.2 - y) - (y' - y) * (z.1 - x) then -1 else 0 := by
  unfold segW segWinding
  rw [if_pos (bulgeIsZero_true (box4_line _ _))]
  unfold lineWinding isLeft
  have hp : perpDotTestValue (⟨x, y⟩ : V2 ℝ) ⟨x', y'⟩ ⟨z.1, z.2⟩ = (x' - x) * (z.2 - y) - (y' - y) * (z.1 - x) := rfl
  simp only [le_eq, gt_eq, lt_eq, Vertex.pos, hp]
  simp

theorem box4_sum (X : V2 ℝ) : box4.windingNumber X = segW (X.x, X.y) (⟨0, 0, 0⟩, ⟨4, 0, 0⟩) + (segW (X.x, X.y) (⟨4, 0, 0⟩, ⟨4, 4, 0⟩) +
    (segW (X.x, X.y) (⟨4, 4, 0⟩, ⟨0, 4, 0⟩) + segW (X.x, X.y) (⟨0, 4, 0⟩, ⟨0, 0, 0⟩))) := by
  have h := wn_segs (straight_loop box4_straight) (X.x, X.y)
  obtain ⟨w0, w1, w2, w3, w4, w5⟩ := box4_vtx
  change box4.windingNumber X = _ at h
  rw [h, segs_range rfl (by decide)]
  have hlen : box4.verts.length = 4 := rfl
  rw [hlen]
  simp only [List.range, List.range.loop, List.map_cons, List.map_nil, List.sum_cons, List.sum_nil, Nat.reduceAdd, w0, w1, w2, w3, w4, add_zero]

theorem box4_wn_in {X : V2 ℝ} (h1 : 0 < X.x) (h2 : X.x < 4) (h3 : 0 < X.y) (h4 : X.y < 4) : box4.windingNumber X = 1 := by
  rw [box4_sum]
  simp only [line_segW]
  rw [if_pos h3.le, if_neg (by intro h; linarith), if_pos h3.le, if_pos ⟨h4, by nlinarith⟩, if_neg (by linarith), if_neg (by intro h; linarith),
    if_neg (by linarith), if_neg (by rintro ⟨_, h⟩; apply h; nlinarith)]
  norm_num

theorem box4_wn_out {X : V2 ℝ} (h : X.x < 0 ∨ 4 < X.x ∨ X.y < 0 ∨ 4 < X.y) : box4.windingNumber X = 0 := by
  rw [box4_sum]
  simp only [line_segW]
  split_ifs <;> first | rfl | (exfalso; rcases h with h | h | h | h <;> first | linarith | grind)

theorem bay_sum (X : V2 ℝ) : bay.windingNumber X = segW (X.x, X.y) (⟨-30, -15, 0⟩, ⟨-30, 30, 0⟩) + (segW (X.x, X.y) (⟨-30, 30, 0⟩, ⟨30, -15, 0⟩) +
    segW (X.x, X.y) (⟨30, -15, 0⟩, ⟨-30, -15, 0⟩)) := by
  have h := wn_segs (straight_loop bay_straight) (X.x, X.y)
  obtain ⟨w0, w1, w2, w3, w4⟩ := bay_vtx
  change bay.windingNumber X = _ at h
  rw [h, segs_range rfl (by decide)]
  have hlen : bay.verts.length = 3 := rfl
  rw [hlen]
  simp only [List.range, List.range.loop, List.map_cons, List.map_nil, List.sum_cons, List.sum_nil, Nat.reduceAdd, w0, w1, w2, w3, w4, add_zero]

theorem bay_wn_in {X : V2 ℝ} (h1 : -30 < X.x) (h2 : -15 < X.y) (h3 : 3 * X.x + 4 * X.y < 30) : bay.windingNumber X = -1 := by
  rw [bay_sum]
  simp only [line_segW]
  rw [if_pos h2.le, if_neg (by rintro ⟨_, h⟩; linarith), if_neg (by linarith), if_pos ⟨h2.le, by linarith⟩, if_pos h2.le, if_neg (by rintro ⟨h, _⟩; linarith)]
  norm_num

theorem bay_wn_out {X : V2 ℝ} (h : X.x < -30 ∨ X.y < -15 ∨ 30 < 3 * X.x + 4 * X.y) : bay.windingNumber X = 0 := by
  rw [bay_sum]
  simp only [line_segW]
  split_ifs <;> first | rfl | (exfalso; rcases h with h | h | h <;> first | linarith | grind)

/-- The points of the square -/
theorem on_box4 {X : V2 ℝ} : OnPline box4 X ↔ 0 ≤ X.x ∧ X.x ≤ 4 ∧ 0 ≤ X.y ∧ X.y ≤ 4 ∧ (X.x = 0 ∨ X.x = 4 ∨ X.y = 0 ∨ X.y = 4) := by
  have mk : ∀ k < 4, ∀ u, 0 ≤ u → u ≤ 1 → OnPline box4 (curveAt box4 k u) := fun k hk u u0 u1 => on_curve rfl (by decide) hk u0 u1
  constructor
  · rintro ⟨s, hs, u, u0, u1, rfl⟩
    obtain ⟨j, hj, rfl⟩ := box4_seg hs
    rw [← curveAt_vtx (by decide)]
    obtain ⟨b0, b1, b2, b3⟩ := box4_inside hj u0 u1
    refine ⟨b0, b1, b2, b3, ?_⟩
    obtain ⟨a0, a1, a2, a3⟩ := box4_side u
    interval_cases j <;> simp [a0, a1, a2, a3]
  · rintro ⟨h1, h2, h3, h4, h⟩
    have e : X = ⟨X.x, X.y⟩ := rfl
    rcases h with h | h | h | h
    · have := mk 3 (by norm_num) ((4 - X.y) / 4) (by linarith) (by linarith)
      rw [(box4_side _).2.2.2] at this
      rw [e, h]; convert this using 2; ring
    · have := mk 1 (by norm_num) (X.y / 4) (by linarith) (by linarith)
      rw [(box4_side _).2.1] at this
      rw [e, h]; convert this using 2; ring
    · have := mk 0 (by norm_num) (X.x / 4) (by linarith) (by linarith)
      rw [(box4_side _).1] at this
      rw [e, h]; convert this using 2; ring
    · have := mk 2 (by norm_num) ((4 - X.x) / 4) (by linarith) (by linarith)
      rw [(box4_side _).2.2.1] at this
      rw [e, h]; convert this using 2; ring

/-- The points of the triangle -/
theorem on_bay {X : V2 ℝ} : OnPline bay X ↔ -30 ≤ X.x ∧ -15 ≤ X.y ∧ 3 * X.x + 4 * X.y ≤ 30 ∧ (X.x = -30 ∨ X.y = -15 ∨ 3 * X.x + 4 * X.y = 30) := by
  have mk : ∀ k < 3, ∀ u, 0 ≤ u → u ≤ 1 → OnPline bay (curveAt bay k u) := fun k hk u u0 u1 => on_curve rfl (by decide) hk u0 u1
  constructor
  · rintro ⟨s, hs, u, u0, u1, rfl⟩
    obtain ⟨j, hj, rfl⟩ := bay_seg hs
    rw [← curveAt_vtx (by decide)]
    obtain ⟨a0, a1, a2⟩ := bay_curve u
    interval_cases j <;> simp only [a0, a1, a2]
    · exact ⟨by linarith, by linarith, by linarith, Or.inl (by simp)⟩
    · exact ⟨by linarith, by linarith, by linarith, Or.inr (Or.inr (by ring))⟩
    · exact ⟨by linarith, by linarith, by linarith, Or.inr (Or.inl (by simp))⟩
  · rintro ⟨h1, h2, h3, h⟩
    rcases h with h | h | h
    · have := mk 0 (by norm_num) ((X.y + 15) / 45) (by linarith) (by linarith)
      rw [(bay_curve _).1] at this
      convert this using 1
      rw [V2.ext_iff']; exact ⟨h, by dsimp only; ring⟩
    · have := mk 2 (by norm_num) ((30 - X.x) / 60) (by linarith) (by linarith)
      rw [(bay_curve _).2.2] at this
      convert this using 1
      rw [V2.ext_iff']; exact ⟨by dsimp only; ring, h⟩
    · have := mk 1 (by norm_num) ((X.x + 30) / 60) (by linarith) (by linarith)
      rw [(bay_curve _).2.1] at this
      convert this using 1
      rw [V2.ext_iff']; exact ⟨by dsimp only; ring, by dsimp only; linarith⟩

theorem box4_turns : TurnsLike box4 1 := by
  refine ⟨Or.inl rfl, fun X hX => ?_⟩
  rw [on_box4] at hX
  by_cases h : X.x < 0 ∨ 4 < X.x ∨ X.y < 0 ∨ 4 < X.y
  · exact Or.inl (box4_wn_out h)
  · simp only [not_or, not_lt] at h
    obtain ⟨h1, h2, h3, h4⟩ := h
    simp only [h1, h2, h3, h4, true_and, not_or] at hX
    obtain ⟨n1, n2, n3, n4⟩ := hX
    exact Or.inr (box4_wn_in (lt_of_le_of_ne h1 (Ne.symm n1)) (lt_of_le_of_ne h2 n2) (lt_of_le_of_ne h3 (Ne.symm n3)) (lt_of_le_of_ne h4 n4))

theorem bay_turns : TurnsLike bay (-1) := by
  refine ⟨Or.inr rfl, fun X hX => ?_⟩
  rw [on_bay] at hX
  by_cases h : X.x < -30 ∨ X.y < -15 ∨ 30 < 3 * X.x + 4 * X.y
  · exact Or.inl (bay_wn_out h)
  · simp only [not_or, not_lt] at h
    obtain ⟨h1, h2, h3⟩ := h
    simp only [h1, h2, h3, true_and, not_or] at hX
    obtain ⟨n1, n2, n3⟩ := hX
    exact Or.inr (bay_wn_in (lt_of_le_of_ne h1 (Ne.symm n1)) (lt_of_le_of_ne h2 (Ne.symm n2)) (lt_of_le_of_ne h3 n3))

theorem islet_disjoint {X : V2 ℝ} (h : OnPline box4 X) : ¬ OnPline bay X := by
  rw [on_box4] at h
  rw [on_bay]
  rintro ⟨h1, h2, h3, h4⟩
  rcases h4 with h4 | h4 | h4 <;> linarith

/-- The winding numbers of island and bay add up to -1 or 0. -/
theorem islet_numbers {X : V2 ℝ} (h1 : ¬ OnPline box4 X) (h2 : ¬ OnPline bay X) :
    box4.windingNumber X + bay.windingNumber X = -1 ∨ box4.windingNumber X + bay.windingNumber X = 0 := by
  rcases box4_turns.2 X h1 with e | e
  · rcases bay_turns.2 X h2 with e' | e' <;> omega
  · have : bay.windingNumber X = -1 := by
      have hn : ¬ (X.x < 0 ∨ 4 < X.x ∨ X.y < 0 ∨ 4 < X.y) := by
        intro h
        rw [box4_wn_out h] at e
        norm_num at e
      simp only [not_or, not_lt] at hn
      obtain ⟨n1, n2, n3, n4⟩ := hn
      apply bay_wn_in <;> linarith
    omega

/-- The points of the inner triangle -/
theorem on_bayIn {X : V2 ℝ} : OnPline bayIn X ↔ -29 ≤ X.x ∧ -14 ≤ X.y ∧ 3 * X.x + 4 * X.y ≤ 25 ∧ (X.x = -29 ∨ X.y = -14 ∨ 3 * X.x + 4 * X.y = 25) := by
  have mk : ∀ k < 3, ∀ u, 0 ≤ u → u ≤ 1 → OnPline bayIn (curveAt bayIn k u) := fun k hk u u0 u1 => on_curve rfl (by decide) hk u0 u1
  constructor
  · intro h
    obtain ⟨j, hj, u, u0, u1, rfl⟩ := on_in h
    obtain ⟨a0, a1, a2⟩ := bayIn_curve u
    interval_cases j <;> simp only [a0, a1, a2]
    · exact ⟨by linarith, by linarith, by linarith, Or.inl (by simp)⟩
    · exact ⟨by linarith, by linarith, by linarith, Or.inr (Or.inr (by ring))⟩
    · exact ⟨by linarith, by linarith, by linarith, Or.inr (Or.inl (by simp))⟩
  · rintro ⟨h1, h2, h3, h⟩
    rcases h with h | h | h
    · have := mk 0 (by norm_num) ((X.y + 14) / 42) (by linarith) (by linarith)
      rw [(bayIn_curve _).1] at this
      convert this using 1
      rw [V2.ext_iff']; exact ⟨h, by dsimp only; ring⟩
    · have := mk 2 (by norm_num) ((27 - X.x) / 56) (by linarith) (by linarith)
      rw [(bayIn_curve _).2.2] at this
      convert this using 1
      rw [V2.ext_iff']; exact ⟨by dsimp only; ring, h⟩
    · have := mk 1 (by norm_num) ((X.x + 29) / 56) (by linarith) (by linarith)
      rw [(bayIn_curve _).2.1] at this
      convert this using 1
      rw [V2.ext_iff']; exact ⟨by dsimp only; ring, by dsimp only; linarith⟩

/-- the derivatives of a straight piece -/
theorem lin_deriv (a b t : ℝ) : HasDerivAt (fun s : ℝ => a + b * s) b t := by
  simpa using ((hasDerivAt_id t).const_mul b).const_add a

theorem bayIn_along : Alongside bay (-1) (-1) [bayIn] := by
  have habs : |(-1 : ℝ)| = 1 := by norm_num
  refine ⟨fun X => ?_, ?_⟩
  · simp only [List.mem_singleton, exists_eq_left]
    rw [habs, if_pos (by norm_num)]
    constructor
    · intro h
      have hk := bayIn_keeps h
      obtain ⟨h1, h2, h3, h4⟩ := on_bayIn.mp h
      refine ⟨hk, ?_, bay_wn_in (by linarith) (by linarith) (by linarith)⟩
      rcases h4 with e | e | e
      · refine ⟨⟨-30, X.y⟩, on_bay.mpr ⟨le_refl _, by dsimp only; linarith, by dsimp only; linarith, Or.inl rfl⟩, edist_lit _ _ 1 (by norm_num) ?_⟩
        dsimp only; rw [e]; ring
      · refine ⟨⟨X.x, -15⟩, on_bay.mpr ⟨by dsimp only; linarith, le_refl _, by dsimp only; linarith, Or.inr (Or.inl rfl)⟩, edist_lit _ _ 1 (by norm_num) ?_⟩
        dsimp only; rw [e]; ring
      · refine ⟨⟨X.x + 3 / 5, X.y + 4 / 5⟩, on_bay.mpr ⟨by dsimp only; linarith, by dsimp only; linarith, by dsimp only; linarith, Or.inr (Or.inr (by dsimp only; linarith))⟩, edist_lit _ _ 1 (by norm_num) ?_⟩
        dsimp only; ring
    · rintro ⟨hk, ⟨F, hF, e⟩, hw⟩
      have hoff : ¬ OnPline bay X := by
        intro h
        have := hk X h
        have e0 : edist X X = 0 := edist_lit _ _ 0 (le_refl _) (by ring)
        linarith
      have hn : ¬ (X.x < -30 ∨ X.y < -15 ∨ 30 < 3 * X.x + 4 * X.y) := by
        intro h
        rw [bay_wn_out h] at hw
        norm_num at hw
      simp only [not_or, not_lt] at hn
      obtain ⟨n1, n2, n3⟩ := hn
      have a1 := hk ⟨-30, X.y⟩ (on_bay.mpr ⟨le_refl _, n2, by dsimp only; linarith, Or.inl rfl⟩)
      have a2 := hk ⟨X.x, -15⟩ (on_bay.mpr ⟨n1, le_refl _, by dsimp only; linarith, Or.inr (Or.inl rfl)⟩)
      have a3 := hk ⟨X.x + 3 * (30 - 3 * X.x - 4 * X.y) / 25, X.y + 4 * (30 - 3 * X.x - 4 * X.y) / 25⟩
        (on_bay.mpr ⟨by dsimp only; linarith, by dsimp only; linarith, by dsimp only; linarith, Or.inr (Or.inr (by dsimp only; ring))⟩)
      rw [edist_lit _ _ (X.x + 30) (by linarith) (by dsimp only; ring)] at a1
      rw [edist_lit _ _ (X.y + 15) (by linarith) (by dsimp only; ring)] at a2
      rw [edist_lit _ _ ((30 - 3 * X.x - 4 * X.y) / 5) (by linarith) (by dsimp only; ring)] at a3
      have b := edist_sq X F
      rw [e] at b
      obtain ⟨f1, f2, f3, f4⟩ := on_bay.mp hF
      refine on_bayIn.mpr ⟨by linarith, by linarith, by linarith, ?_⟩
      rcases f4 with f4 | f4 | f4
      · left; nlinarith [sq_nonneg (X.y - F.y), sq_nonneg (X.x - F.x)]
      · right; left; nlinarith [sq_nonneg (X.y - F.y), sq_nonneg (X.x - F.x)]
      · right; right; nlinarith [sq_nonneg (4 * (X.x - F.x) - 3 * (X.y - F.y))]
  · intro l hl k t hk t0 t1
    cases List.mem_singleton.mp hl
    change k < 3 at hk
    obtain ⟨a0, a1, a2⟩ := bayIn_curve t
    have f0 := fun s => (bayIn_curve s).1
    have f1 := fun s => (bayIn_curve s).2.1
    have f2 := fun s => (bayIn_curve s).2.2
    unfold RunsBeside
    rw [habs]
    interval_cases k
    · simp only [f0]
      refine ⟨⟨-30, -14 + 42 * t⟩, 0, 42, 1 / 42, on_bay.mpr ⟨le_refl _, by dsimp only; linarith, by dsimp only; linarith, Or.inl rfl⟩, edist_lit _ _ 1 (by norm_num) (by dsimp only; ring), hasDerivAt_const _ _, lin_deriv _ _ _, by norm_num, by norm_num, by norm_num⟩
    · simp only [f1]
      refine ⟨⟨-29 + 56 * t + 3 / 5, 28 - 42 * t + 4 / 5⟩, 56, -42, 1 / 70, on_bay.mpr ⟨by dsimp only; linarith, by dsimp only; linarith, by dsimp only; linarith, Or.inr (Or.inr (by dsimp only; ring))⟩, edist_lit _ _ 1 (by norm_num) (by dsimp only; ring), lin_deriv _ _ _, ?_, by norm_num, by norm_num, by norm_num⟩
      simpa [sub_eq_add_neg] using lin_deriv 28 (-42) t
    · simp only [f2]
      refine ⟨⟨27 - 56 * t, -15⟩, -56, 0, 1 / 56, on_bay.mpr ⟨by dsimp only; linarith, le_refl _, by dsimp only; linarith, Or.inr (Or.inl rfl)⟩, edist_lit _ _ 1 (by norm_num) (by dsimp only; ring), ?_, hasDerivAt_const _ _, by norm_num, by norm_num, by norm_num⟩
      simpa [sub_eq_add_neg] using lin_deriv 27 (-56) t

theorem quarter_at {u v : ℝ} (hu : 0 ≤ u) (hv : 0 ≤ v) (h : u ^ 2 + v ^ 2 = 1) : ∃ t, 0 ≤ t ∧ t ≤ 1 ∧ qs t = u ∧ qc t = v := by
  have hpi := Real.pi_pos
  have hu1 : u ≤ 1 := by nlinarith [sq_nonneg v]
  refine ⟨Real.arcsin u * (2 / Real.pi), by have := Real.arcsin_nonneg.mpr hu; positivity, ?_, ?_, ?_⟩
  · rw [← mul_div_assoc, div_le_one hpi]
    linarith [Real.arcsin_le_pi_div_two u]
  all_goals
    have e : Real.arcsin u * (2 / Real.pi) * (2 * (Real.pi / 4)) = Real.arcsin u := by field_simp; ring
  · unfold qs
    rw [e, Real.sin_arcsin (by linarith) hu1]
  · unfold qc
    rw [e, Real.cos_arcsin, show 1 - u ^ 2 = v ^ 2 by linarith, Real.sqrt_sq hv]

theorem qs_deriv (t : ℝ) : HasDerivAt qs (2 * (Real.pi / 4) * qc t) t := by
  have h1 : HasDerivAt (fun s : ℝ => s * (2 * (Real.pi / 4))) (2 * (Real.pi / 4)) t := by simpa using (hasDerivAt_id t).mul_const (2 * (Real.pi / 4))
  have := (Real.hasDerivAt_sin (t * (2 * (Real.pi / 4)))).comp t h1
  rw [mul_comm]
  exact this

theorem qc_deriv (t : ℝ) : HasDerivAt qc (-(2 * (Real.pi / 4) * qs t)) t := by
  have h1 : HasDerivAt (fun s : ℝ => s * (2 * (Real.pi / 4))) (2 * (Real.pi / 4)) t := by simpa using (hasDerivAt_id t).mul_const (2 * (Real.pi / 4))
  have := (Real.hasDerivAt_cos (t * (2 * (Real.pi / 4)))).comp t h1
  rw [mul_comm, ← neg_mul]
  exact this

theorem out_at {k : Nat} (hk : k < 8) {t : ℝ} (t0 : 0 ≤ t) (t1 : t ≤ 1) : OnPline (rawLoop box4 (-1)) (curveAt (rawLoop box4 (-1)) k t) :=
  on_curve box4_raw_full.closed box4_raw_full.two (by rw [box4_len8]; exact hk) t0 t1

theorem box4_along : Alongside box4 (-1) 1 [rawLoop box4 (-1)] := by
  have habs : |(-1 : ℝ)| = 1 := by norm_num
  refine ⟨fun X => ?_, ?_⟩
  · simp only [List.mem_singleton, exists_eq_left]
    rw [habs, if_neg (by norm_num)]
    constructor
    · intro h
      have hk := box4_raw_keeps h
      obtain ⟨k, hk8, t, t0, t1, rfl⟩ := on_out h
      obtain ⟨s0, c0, s1, c1⟩ := q_bounds t0 t1
      have hsc := qs_qc t
      have hpos : 0 < qs t ∨ 0 < qc t := by
        by_contra hn
        simp only [not_or, not_lt] at hn
        nlinarith
      obtain ⟨a0, a1, a2, a3, a4, a5, a6, a7⟩ := box4_curve t
      refine ⟨hk, ?_, ?_⟩
      · interval_cases k
        · exact ⟨⟨4 * t, 0⟩, on_box4.mpr ⟨by dsimp only; linarith, by dsimp only; linarith, le_refl _, by norm_num, by norm_num⟩, edist_lit _ _ 1 (by norm_num) (by rw [a0]; dsimp only; ring)⟩
        · exact ⟨⟨4, 0⟩, on_box4.mpr ⟨by norm_num, by norm_num, by norm_num, by norm_num, by norm_num⟩, edist_lit _ _ 1 (by norm_num) (by rw [a1]; dsimp only; linarith)⟩
        · exact ⟨⟨4, 4 * t⟩, on_box4.mpr ⟨by norm_num, by norm_num, by dsimp only; linarith, by dsimp only; linarith, by norm_num⟩, edist_lit _ _ 1 (by norm_num) (by rw [a2]; dsimp only; ring)⟩
        · exact ⟨⟨4, 4⟩, on_box4.mpr ⟨by norm_num, by norm_num, by norm_num, by norm_num, by norm_num⟩, edist_lit _ _ 1 (by norm_num) (by rw [a3]; dsimp only; linarith)⟩
        · exact ⟨⟨4 - 4 * t, 4⟩, on_box4.mpr ⟨by dsimp only; linarith, by dsimp only; linarith, by norm_num, by norm_num, by norm_num⟩, edist_lit _ _ 1 (by norm_num) (by rw [a4]; dsimp only; ring)⟩
        · exact ⟨⟨0, 4⟩, on_box4.mpr ⟨by norm_num, by norm_num, by norm_num, by norm_num, by norm_num⟩, edist_lit _ _ 1 (by norm_num) (by rw [a5]; dsimp only; linarith)⟩
        · exact ⟨⟨0, 4 - 4 * t⟩, on_box4.mpr ⟨by norm_num, by norm_num, by dsimp only; linarith, by dsimp only; linarith, by norm_num⟩, edist_lit _ _ 1 (by norm_num) (by rw [a6]; dsimp only; ring)⟩
        · exact ⟨⟨0, 0⟩, on_box4.mpr ⟨by norm_num, by norm_num, by norm_num, by norm_num, by norm_num⟩, edist_lit _ _ 1 (by norm_num) (by rw [a7]; dsimp only; linarith)⟩
      · apply box4_wn_out
        interval_cases k <;> simp only [a0, a1, a2, a3, a4, a5, a6, a7] <;> rcases hpos with hp | hp <;>
          first
          | (left; linarith)
          | (right; left; linarith)
          | (right; right; left; linarith)
          | (right; right; right; linarith)
    · rintro ⟨hk, ⟨F, hF, e⟩, hw⟩
      have hoff : ¬ OnPline box4 X := by
        intro h
        have := hk X h
        have e0 : edist X X = 0 := edist_lit _ _ 0 (le_refl _) (by ring)
        linarith
      have b := edist_sq X F
      rw [e] at b
      obtain ⟨f1, f2, f3, f4, -⟩ := on_box4.mp hF
      have hex : X = ⟨X.x, X.y⟩ := rfl
      have hout : X.x < 0 ∨ 4 < X.x ∨ X.y < 0 ∨ 4 < X.y := by
        by_contra hn
        simp only [not_or, not_lt] at hn
        obtain ⟨h1, h2, h3, h4⟩ := hn
        rw [on_box4] at hoff
        simp only [h1, h2, h3, h4, true_and, not_or] at hoff
        obtain ⟨n1, n2, n3, n4⟩ := hoff
        rw [box4_wn_in (lt_of_le_of_ne h1 (Ne.symm n1)) (lt_of_le_of_ne h2 n2) (lt_of_le_of_ne h3 (Ne.symm n3)) (lt_of_le_of_ne h4 n4)] at hw
        norm_num at hw
      have far : ∀ q : V2 ℝ, OnPline box4 q → 1 ≤ (X.x - q.x) ^ 2 + (X.y - q.y) ^ 2 := by
        intro q hq
        have h1 := hk q hq
        have h2 := edist_sq X q
        nlinarith
      rcases lt_or_ge X.x 0 with x0 | x0
      · rcases lt_or_ge X.y 0 with y0 | y0
        · have h1 := far ⟨0, 0⟩ (on_box4.mpr ⟨by norm_num, by norm_num, by norm_num, by norm_num, by norm_num⟩)
          dsimp only at h1
          obtain ⟨t, t0, t1, es, ec⟩ := quarter_at (u := -X.y) (v := -X.x) (by linarith) (by linarith) (by nlinarith)
          have := out_at (k := 7) (by norm_num) t0 t1
          rw [(box4_curve t).2.2.2.2.2.2.2, es, ec, neg_neg, neg_neg] at this
          exact this
        rcases lt_or_ge 4 X.y with y4 | y4
        · have h1 := far ⟨0, 4⟩ (on_box4.mpr ⟨by norm_num, by norm_num, by norm_num, by norm_num, by norm_num⟩)
          dsimp only at h1
          obtain ⟨t, t0, t1, es, ec⟩ := quarter_at (u := -X.x) (v := X.y - 4) (by linarith) (by linarith) (by nlinarith)
          have := out_at (k := 5) (by norm_num) t0 t1
          rw [(box4_curve t).2.2.2.2.2.1, es, ec, neg_neg, add_sub_cancel] at this
          exact this
        · have h1 := far ⟨0, X.y⟩ (on_box4.mpr ⟨by norm_num, by norm_num, y0, y4, by norm_num⟩)
          dsimp only at h1
          have hx : X.x = -1 := by nlinarith [sq_nonneg (X.y - F.y)]
          have := out_at (k := 6) (t := (4 - X.y) / 4) (by norm_num) (by linarith) (by linarith)
          rw [(box4_curve _).2.2.2.2.2.2.1] at this
          rw [hex, hx]; convert this using 2; ring
      rcases lt_or_ge 4 X.x with x4 | x4
      · rcases lt_or_ge X.y 0 with y0 | y0
        · have h1 := far ⟨4, 0⟩ (on_box4.mpr ⟨by norm_num, by norm_num, by norm_num, by norm_num, by norm_num⟩)
          dsimp only at h1
          obtain ⟨t, t0, t1, es, ec⟩ := quarter_at (u := X.x - 4) (v := -X.y) (by linarith) (by linarith) (by nlinarith)
          have := out_at (k := 1) (by norm_num) t0 t1
          rw [(box4_curve t).2.1, es, ec, neg_neg, add_sub_cancel] at this
          exact this
        rcases lt_or_ge 4 X.y with y4 | y4
        · have h1 := far ⟨4, 4⟩ (on_box4.mpr ⟨by norm_num, by norm_num, by norm_num, by norm_num, by norm_num⟩)
          dsimp only at h1
          obtain ⟨t, t0, t1, es, ec⟩ := quarter_at (u := X.y - 4) (v := X.x - 4) (by linarith) (by linarith) (by nlinarith)
          have := out_at (k := 3) (by norm_num) t0 t1
          rw [(box4_curve t).2.2.2.1, es, ec, add_sub_cancel, add_sub_cancel] at this
          exact this
        · have h1 := far ⟨4, X.y⟩ (on_box4.mpr ⟨by norm_num, by norm_num, y0, y4, by norm_num⟩)
          dsimp only at h1
          have hx : X.x = 5 := by nlinarith [sq_nonneg (X.y - F.y)]
          have := out_at (k := 2) (t := X.y / 4) (by norm_num) (by linarith) (by linarith)
          rw [(box4_curve _).2.2.1] at this
          rw [hex, hx]; convert this using 2; ring
      rcases lt_or_ge X.y 0 with y0 | y0
      · have h1 := far ⟨X.x, 0⟩ (on_box4.mpr ⟨x0, x4, by norm_num, by norm_num, by norm_num⟩)
        dsimp only at h1
        have hy : X.y = -1 := by nlinarith [sq_nonneg (X.x - F.x)]
        have := out_at (k := 0) (t := X.x / 4) (by norm_num) (by linarith) (by linarith)
        rw [(box4_curve _).1] at this
        rw [hex, hy]; convert this using 2; ring
      · have y4 : 4 < X.y := by
          rcases hout with h | h | h | h <;> linarith
        have h1 := far ⟨X.x, 4⟩ (on_box4.mpr ⟨x0, x4, by norm_num, by norm_num, by norm_num⟩)
        dsimp only at h1
        have hy : X.y = 5 := by nlinarith [sq_nonneg (X.x - F.x)]
        have := out_at (k := 4) (t := (4 - X.x) / 4) (by norm_num) (by linarith) (by linarith)
        rw [(box4_curve _).2.2.2.2.1] at this
        rw [hex, hy]; convert this using 2; ring
  · intro l hl k t hk t0 t1
    cases List.mem_singleton.mp hl
    rw [box4_len8] at hk
    have hsc := qs_qc t
    have hpi := Real.pi_pos
    have f0 := fun s => (box4_curve s).1
    have f1 := fun s => (box4_curve s).2.1
    have f2 := fun s => (box4_curve s).2.2.1
    have f3 := fun s => (box4_curve s).2.2.2.1
    have f4 := fun s => (box4_curve s).2.2.2.2.1
    have f5 := fun s => (box4_curve s).2.2.2.2.2.1
    have f6 := fun s => (box4_curve s).2.2.2.2.2.2.1
    have f7 := fun s => (box4_curve s).2.2.2.2.2.2.2
    have up : HasDerivAt (fun s : ℝ => 4 * s) 4 t := by simpa using lin_deriv 0 4 t
    have down : HasDerivAt (fun s : ℝ => 4 - 4 * s) (-4) t := by simpa [sub_eq_add_neg] using lin_deriv 4 (-4) t
    unfold RunsBeside
    rw [habs]
    interval_cases k
    · simp only [f0]
      exact ⟨⟨4 * t, 0⟩, 4, 0, 1 / 4, on_box4.mpr ⟨by dsimp only; linarith, by dsimp only; linarith, le_refl _, by norm_num, by norm_num⟩, edist_lit _ _ 1 (by norm_num) (by dsimp only; ring),
        up, hasDerivAt_const _ _, by norm_num, by norm_num, by norm_num⟩
    · simp only [f1]
      exact ⟨⟨4, 0⟩, _, _, 1 / (2 * (Real.pi / 4)), on_box4.mpr ⟨by norm_num, by norm_num, by norm_num, by norm_num, by norm_num⟩, edist_lit _ _ 1 (by norm_num) (by dsimp only; linarith),
        (qs_deriv t).const_add 4, (qc_deriv t).neg, by positivity, by field_simp; ring, by field_simp; ring⟩
    · simp only [f2]
      exact ⟨⟨4, 4 * t⟩, 0, 4, 1 / 4, on_box4.mpr ⟨by norm_num, by norm_num, by dsimp only; linarith, by dsimp only; linarith, by norm_num⟩, edist_lit _ _ 1 (by norm_num) (by dsimp only; ring),
        hasDerivAt_const _ _, up, by norm_num, by norm_num, by norm_num⟩
    · simp only [f3]
      exact ⟨⟨4, 4⟩, _, _, 1 / (2 * (Real.pi / 4)), on_box4.mpr ⟨by norm_num, by norm_num, by norm_num, by norm_num, by norm_num⟩, edist_lit _ _ 1 (by norm_num) (by dsimp only; linarith),
        (qc_deriv t).const_add 4, (qs_deriv t).const_add 4, by positivity, by field_simp; ring, by field_simp; ring⟩
    · simp only [f4]
      exact ⟨⟨4 - 4 * t, 4⟩, -4, 0, 1 / 4, on_box4.mpr ⟨by dsimp only; linarith, by dsimp only; linarith, by norm_num, by norm_num, by norm_num⟩, edist_lit _ _ 1 (by norm_num) (by dsimp only; ring),
        down, hasDerivAt_const _ _, by norm_num, by norm_num, by norm_num⟩
    · simp only [f5]
      exact ⟨⟨0, 4⟩, _, _, 1 / (2 * (Real.pi / 4)), on_box4.mpr ⟨by norm_num, by norm_num, by norm_num, by norm_num, by norm_num⟩, edist_lit _ _ 1 (by norm_num) (by dsimp only; linarith),
        (qs_deriv t).neg, (qc_deriv t).const_add 4, by positivity, by field_simp; ring, by field_simp; ring⟩
    · simp only [f6]
      exact ⟨⟨0, 4 - 4 * t⟩, 0, -4, 1 / 4, on_box4.mpr ⟨by norm_num, by norm_num, by dsimp only; linarith, by dsimp only; linarith, by norm_num⟩, edist_lit _ _ 1 (by norm_num) (by dsimp only; ring),
        hasDerivAt_const _ _, down, by norm_num, by norm_num, by norm_num⟩
    · simp only [f7]
      exact ⟨⟨0, 0⟩, _, _, 1 / (2 * (Real.pi / 4)), on_box4.mpr ⟨by norm_num, by norm_num, by norm_num, by norm_num, by norm_num⟩, edist_lit _ _ 1 (by norm_num) (by dsimp only; linarith),
        (qc_deriv t).neg, (qs_deriv t).neg, by positivity, by field_simp; ring, by field_simp; ring⟩

theorem bay_simple : SimpleLoop bay := by
  intro i j hi hj t u t0 t1 u0 u1 h
  obtain ⟨a0, a1, a2⟩ := bay_curve t
  obtain ⟨b0, b1, b2⟩ := bay_curve u
  change i < 3 at hi
  change j < 3 at hj
  interval_cases i <;> interval_cases j <;> simp only [a0, a1, a2, b0, b1, b2, V2.ext_iff'] at h <;> obtain ⟨h1, h2⟩ := h <;>
    first
    | exact ⟨rfl, by linarith⟩
    | (exfalso; linarith)

theorem bayIn_simple : SimpleLoop bayIn := by
  intro i j hi hj t u t0 t1 u0 u1 h
  obtain ⟨a0, a1, a2⟩ := bayIn_curve t
  obtain ⟨b0, b1, b2⟩ := bayIn_curve u
  change i < 3 at hi
  change j < 3 at hj
  interval_cases i <;> interval_cases j <;> simp only [a0, a1, a2, b0, b1, b2, V2.ext_iff'] at h <;> obtain ⟨h1, h2⟩ := h <;>
    first
    | exact ⟨rfl, by linarith⟩
    | (exfalso; linarith)

theorem qs_inj {t u : ℝ} (t0 : 0 ≤ t) (t1 : t ≤ 1) (u0 : 0 ≤ u) (u1 : u ≤ 1) (h : qs t = qs u) : t = u := by
  have hpi := Real.pi_pos
  have := Real.injOn_sin (x₁ := t * (2 * (Real.pi / 4))) (x₂ := u * (2 * (Real.pi / 4))) ⟨by nlinarith, by nlinarith⟩ ⟨by nlinarith, by nlinarith⟩ h
  exact mul_right_cancel₀ (by positivity) this

theorem qc_pos {t : ℝ} (t0 : 0 ≤ t) (t1 : t < 1) : 0 < qc t := by
  rcases lt_or_eq_of_le (q_bounds t0 t1.le).2.1 with h | h
  · exact h
  · exact absurd (qc_zero t0 t1.le h.symm) t1.ne

theorem box4_raw_simple : SimpleLoop (rawLoop box4 (-1)) := by
  intro i j hi hj t u t0 t1 u0 u1 h
  rw [box4_len8] at hi hj
  obtain ⟨a0, a1, a2, a3, a4, a5, a6, a7⟩ := box4_curve t
  obtain ⟨b0, b1, b2, b3, b4, b5, b6, b7⟩ := box4_curve u
  obtain ⟨s0, c0, s1, c1⟩ := q_bounds t0 t1.le
  obtain ⟨s0', c0', s1', c1'⟩ := q_bounds u0 u1.le
  have cp := qc_pos t0 t1
  have cp' := qc_pos u0 u1
  have e1 := qs_qc t
  have e2 := qs_qc u
  interval_cases i <;> interval_cases j <;> simp only [a0, a1, a2, a3, a4, a5, a6, a7, b0, b1, b2, b3, b4, b5, b6, b7, V2.ext_iff'] at h <;> obtain ⟨h1, h2⟩ := h <;>
    first
    | exact ⟨rfl, by linarith⟩
    | exact ⟨rfl, qs_inj t0 t1.le u0 u1.le (by linarith)⟩
    | (exfalso; linarith)
    | (exfalso; nlinarith)

end Cavc
