import Verif.Lemmas.Bay
import Verif.Lemmas.CoilOffset
import Verif.Spec.ShapeOffset
import Verif.Props.Area
import Verif.Props.Shape

/-! # Example: an island near the long side of a bay, offset by 1 into the water

The island is the square of side 4, offset to the outside with rounded corners; the bay is a clockwise triangle, offset to the inside.
The two offset loops cross twice. -/

set_option linter.unusedVariables false

namespace Cavc
open Pline RealScalar

/-- which points of the offset of the island keep the distance from the bay -/
theorem islet_keep0 {k : Nat} (hk : k < 8) {t : ℝ} (t0 : 0 ≤ t) (t1 : t ≤ 1) :
    Keeps bay 1 (curveAt (rawLoop box4 (-1)) k t) ↔ (k = 2 → t ≤ 5 / 8) ∧ k ≠ 3 ∧ (k = 4 → 7 / 12 ≤ t) := by
  obtain ⟨a0, a1, a2, a3, a4, a5, a6, a7⟩ := box4_curve t
  obtain ⟨s0, c0, s1, c1⟩ := q_bounds t0 t1
  have hsc := qs_qc t
  constructor
  · intro h
    -- a point beyond the line is near its foot on the long side
    have hfar : ∀ X : V2 ℝ, -1 ≤ X.x → X.x ≤ 5 → -1 ≤ X.y → X.y ≤ 5 → 25 < 3 * X.x + 4 * X.y → 3 * X.x + 4 * X.y < 35 → ¬ Keeps bay 1 X := by
      intro X x0 x1 y0 y1 hf hf2 hX
      have hq := hX (curveAt bay 1 ((X.x + 3 * (30 - 3 * X.x - 4 * X.y) / 25 + 30) / 60)) (on_curve rfl (by decide) (by decide) (by linarith) (by linarith))
      rw [(bay_curve _).2.1] at hq
      have hsq := edist_sq X ⟨-30 + 60 * ((X.x + 3 * (30 - 3 * X.x - 4 * X.y) / 25 + 30) / 60), 30 - 45 * ((X.x + 3 * (30 - 3 * X.x - 4 * X.y) / 25 + 30) / 60)⟩
      dsimp only at hsq
      have e : (X.x - (-30 + 60 * ((X.x + 3 * (30 - 3 * X.x - 4 * X.y) / 25 + 30) / 60))) ^ 2 + (X.y - (30 - 45 * ((X.x + 3 * (30 - 3 * X.x - 4 * X.y) / 25 + 30) / 60))) ^ 2 = (30 - (3 * X.x + 4 * X.y)) ^ 2 / 25 := by ring
      rw [e] at hsq
      have : (30 - (3 * X.x + 4 * X.y)) ^ 2 < 25 := by nlinarith
      nlinarith
    refine ⟨?_, ?_, ?_⟩
    · rintro rfl
      by_contra hc
      refine hfar _ ?_ ?_ ?_ ?_ ?_ ?_ h <;> rw [a2] <;> dsimp only <;> linarith
    · rintro rfl
      refine hfar _ ?_ ?_ ?_ ?_ ?_ ?_ h <;> rw [a3] <;> dsimp only <;> nlinarith [sq_nonneg (3 * qs t - 4 * qc t)]
    · rintro rfl
      by_contra hc
      refine hfar _ ?_ ?_ ?_ ?_ ?_ ?_ h <;> rw [a4] <;> dsimp only <;> linarith
  · rintro ⟨h2, h3, h4⟩
    interval_cases k
    · apply bay_keeps <;> rw [a0] <;> dsimp only <;> linarith
    · apply bay_keeps <;> rw [a1] <;> dsimp only <;> linarith
    · have := h2 rfl
      apply bay_keeps <;> rw [a2] <;> dsimp only <;> linarith
    · exact absurd rfl h3
    · have := h4 rfl
      apply bay_keeps <;> rw [a4] <;> dsimp only <;> linarith
    · apply bay_keeps <;> rw [a5] <;> dsimp only <;> linarith
    · apply bay_keeps <;> rw [a6] <;> dsimp only <;> linarith
    · apply bay_keeps <;> rw [a7] <;> dsimp only <;> linarith

/-- which points of the offset of the bay keep the distance from the island -/
theorem islet_keep1 {k : Nat} (hk : k < 3) {t : ℝ} (t0 : 0 ≤ t) (t1 : t ≤ 1) :
    Keeps box4 1 (curveAt bayIn k t) ↔ (k = 1 → t ≤ 23 / 42 ∨ 17 / 28 ≤ t) := by
  obtain ⟨a0, a1, a2⟩ := bayIn_curve t
  constructor
  · rintro h rfl
    by_contra hc
    push Not at hc
    obtain ⟨c1, c2⟩ := hc
    rw [a1] at h
    by_cases hx : -29 + 56 * t ≤ 4
    · -- above the upper side
      have hq := h _ (on_curve (p := box4) rfl (by decide) (k := 2) (by decide) (u := (33 - 56 * t) / 4) (by linarith) (by linarith))
      rw [(box4_side _).2.2.1] at hq
      have hsq := edist_sq (⟨-29 + 56 * t, 28 - 42 * t⟩ : V2 ℝ) ⟨4 - 4 * ((33 - 56 * t) / 4), 4⟩
      dsimp only at hsq
      nlinarith
    · push Not at hx
      -- right of the right side
      have hq := h _ (on_curve (p := box4) rfl (by decide) (k := 1) (by decide) (u := (28 - 42 * t) / 4) (by linarith) (by linarith))
      rw [(box4_side _).2.1] at hq
      have hsq := edist_sq (⟨-29 + 56 * t, 28 - 42 * t⟩ : V2 ℝ) ⟨4, 4 * ((28 - 42 * t) / 4)⟩
      dsimp only at hsq
      nlinarith
  · rintro h q ⟨s, hs, u, u0, u1, rfl⟩
    obtain ⟨j, hj, rfl⟩ := box4_seg hs
    rw [← curveAt_vtx (by decide)]
    obtain ⟨b0, b1, b2, b3⟩ := box4_inside hj u0 u1
    have hsq := edist_sq (curveAt bayIn k t) (curveAt box4 j u)
    have hnn := edist_nonneg (curveAt bayIn k t) (curveAt box4 j u)
    by_contra hlt
    push Not at hlt
    have hlt2 : edist (curveAt bayIn k t) (curveAt box4 j u) ^ 2 < 1 := by nlinarith
    rw [hsq] at hlt2
    set Q := curveAt box4 j u
    interval_cases k
    · rw [a0] at hlt2; dsimp only at hlt2; nlinarith [sq_nonneg (-14 + 42 * t - Q.y)]
    · rw [a1] at hlt2; dsimp only at hlt2
      rcases h rfl with h | h
      · nlinarith [sq_nonneg (-29 + 56 * t - Q.x)]
      · nlinarith [sq_nonneg (28 - 42 * t - Q.y)]
    · rw [a2] at hlt2; dsimp only at hlt2; nlinarith [sq_nonneg (27 - 56 * t - Q.x)]

/-- where the two offset loops meet -/
theorem islet_meet {k j : Nat} (hk : k < 8) (hj : j < 3) {t u : ℝ} (t0 : 0 ≤ t) (t1 : t ≤ 1) (u0 : 0 ≤ u) (u1 : u ≤ 1) :
    curveAt (rawLoop box4 (-1)) k t = curveAt bayIn j u ↔ (k = 2 ∧ t = 5 / 8 ∧ j = 1 ∧ u = 17 / 28) ∨ (k = 4 ∧ t = 7 / 12 ∧ j = 1 ∧ u = 23 / 42) := by
  obtain ⟨a0, a1, a2, a3, a4, a5, a6, a7⟩ := box4_curve t
  obtain ⟨b0, b1, b2⟩ := bayIn_curve u
  obtain ⟨s0, c0, s1, c1⟩ := q_bounds t0 t1
  have hsc := qs_qc t
  constructor
  · intro h
    interval_cases j
    · exfalso; interval_cases k <;> simp only [a0, a1, a2, a3, a4, a5, a6, a7, b0, V2.mk.injEq] at h <;> linarith [h.1]
    · interval_cases k <;> simp only [a0, a1, a2, a3, a4, a5, a6, a7, b1, V2.mk.injEq] at h <;> obtain ⟨h1, h2⟩ := h
      · exfalso; linarith
      · exfalso; linarith
      · left; exact ⟨rfl, by linarith, rfl, by linarith⟩
      · exfalso; nlinarith
      · right; exact ⟨rfl, by linarith, rfl, by linarith⟩
      · exfalso; linarith
      · exfalso; linarith
      · exfalso; linarith
    · exfalso; interval_cases k <;> simp only [a0, a1, a2, a3, a4, a5, a6, a7, b2, V2.mk.injEq] at h <;> linarith [h.2]
  · rintro (⟨rfl, rfl, rfl, rfl⟩ | ⟨rfl, rfl, rfl, rfl⟩)
    · rw [a2, b1]; norm_num
    · rw [a4, b1]; norm_num

/-- a point that is exactly in line with the ends, or clearly not -/
theorem sweep_tenth {a : Vertex ℝ × Vertex ℝ} {c pt : V2 ℝ} (hc : segCenter a = c)
    (h1 : (a.1.pos.x - c.x) * (pt.y - c.y) - (a.1.pos.y - c.y) * (pt.x - c.x) = 0 ∨ 1 / 10 ≤ |(a.1.pos.x - c.x) * (pt.y - c.y) - (a.1.pos.y - c.y) * (pt.x - c.x)|)
    (h2 : (a.2.pos.x - c.x) * (pt.y - c.y) - (a.2.pos.y - c.y) * (pt.x - c.x) = 0 ∨ 1 / 10 ≤ |(a.2.pos.x - c.x) * (pt.y - c.y) - (a.2.pos.y - c.y) * (pt.x - c.x)|) :
    SweepClear a.1 a.2 pt (1 / 100000) := by
  intro e he
  have hc' : arcCenter a.1.pos a.2.pos a.1.bulge = c := hc
  have hx : cross c e pt = (e.x - c.x) * (pt.y - c.y) - (e.y - c.y) * (pt.x - c.x) := by unfold cross; ring
  rw [hc', hx]
  rintro ⟨g1, g2⟩
  rcases he with rfl | rfl
  · rcases h1 with h | h
    · rw [h, abs_zero] at g1; exact lt_irrefl _ g1
    · linarith
  · rcases h2 with h | h
    · rw [h, abs_zero] at g1; exact lt_irrefl _ g1
    · linarith

/-- a point far from the center is clear of an arc of radius 1 -/
theorem clear_of_arc {a : Vertex ℝ × Vertex ℝ} {c pt : V2 ℝ} (ha : ProperArc a.1 a.2) (hc : segCenter a = c) (hr : segRadius a = 1)
    (hs : SweepClear a.1 a.2 pt (1 / 100000)) (hd : 4 ≤ (pt.x - c.x) ^ 2 + (pt.y - c.y) ^ 2) : ClearOfArc a pt (1 / 100000) := by
  refine ⟨hs, fun q hq => ?_⟩
  have h1 := onSeg_circle ha hq
  rw [hc, hr] at h1
  have h2 := Cavc.edist_triangle pt q c
  have h3 := edist_sq pt c
  have h4 := edist_nonneg pt c
  have h5 : 2 ≤ edist pt c := by nlinarith
  have h1' : edist q c = 1 := h1
  linarith

/-- the long side of the offset of the bay -/
noncomputable def hyp : Vertex ℝ × Vertex ℝ := (⟨-29, 28, 0⟩, ⟨27, -14, 0⟩)

theorem hyp_point (t : ℝ) : linePoint hyp.1.pos hyp.2.pos t = ⟨-29 + 56 * t, 28 - 42 * t⟩ := by
  unfold linePoint hyp Vertex.pos
  rw [V2.mk.injEq]; constructor <;> ring

theorem hyp_ok : LineOk hyp.1.pos hyp.2.pos (1 / 100000) := by
  unfold LineOk Cavc.Apart hyp Vertex.pos
  norm_num [abs_of_pos, abs_of_neg]

theorem hyp_line : IsLine hyp.1 := box4_line _ _

theorem hyp_ends {a : Vertex ℝ × Vertex ℝ} {c : V2 ℝ} (ha : ProperArc a.1 a.2) (hc : segCenter a = c) (hr : segRadius a = 1)
    (h1 : SweepClear a.1 a.2 ⟨-29, 28⟩ (1 / 100000)) (h2 : SweepClear a.1 a.2 ⟨27, -14⟩ (1 / 100000)) (c1 : -1 ≤ c.x) (c2 : c.x ≤ 5) :
    ClearOfArc a hyp.1.pos (1 / 100000) ∧ ClearOfArc a hyp.2.pos (1 / 100000) := by
  constructor
  · exact clear_of_arc ha hc hr h1 (by show (4 : ℝ) ≤ (-29 - c.x) ^ 2 + (28 - c.y) ^ 2; nlinarith [sq_nonneg (28 - c.y)])
  · exact clear_of_arc ha hc hr h2 (by show (4 : ℝ) ≤ (27 - c.x) ^ 2 + (-14 - c.y) ^ 2; nlinarith [sq_nonneg (-14 - c.y)])

/-- the long side passes an arc at a distance -/
theorem hyp_far {a : Vertex ℝ × Vertex ℝ} {c : V2 ℝ} (ha : ProperArc a.1 a.2) (hc : segCenter a = c) (hr : segRadius a = 1)
    (h1 : SweepClear a.1 a.2 ⟨-29, 28⟩ (1 / 100000)) (h2 : SweepClear a.1 a.2 ⟨27, -14⟩ (1 / 100000)) (c1 : -1 ≤ c.x) (c2 : c.x ≤ 5)
    (hf : 3 * c.x + 4 * c.y ≤ 19) : ClearLineArc hyp a (1 / 100000) := by
  have hd : ∀ t, (1 : ℝ) + 2 * (1 / 100000) < edist (linePoint hyp.1.pos hyp.2.pos t) c := by
    intro t
    rw [hyp_point]
    have h3 := edist_sq (⟨-29 + 56 * t, 28 - 42 * t⟩ : V2 ℝ) c
    have h4 := edist_nonneg (⟨-29 + 56 * t, 28 - 42 * t⟩ : V2 ℝ) c
    dsimp only at h3
    have h5 : (36 : ℝ) / 25 ≤ (-29 + 56 * t - c.x) ^ 2 + (28 - 42 * t - c.y) ^ 2 := by
      have : 6 ≤ 3 * (-29 + 56 * t - c.x) + 4 * (28 - 42 * t - c.y) := by linarith
      nlinarith [sq_nonneg (4 * (-29 + 56 * t - c.x) - 3 * (28 - 42 * t - c.y))]
    rw [← h3] at h5
    nlinarith
  refine ⟨hyp_ok, hyp_ends ha hc hr h1 h2 c1 c2, Or.inl (by rw [hc, hr]; exact hd), ?_⟩
  intro t ht
  exfalso
  rw [hc, hr] at ht
  have := hd t
  rw [show edist (linePoint hyp.1.pos hyp.2.pos t) c = 1 from ht] at this
  norm_num at this

/-- the long side cuts the circle of the arc around (4, 4) -/
theorem hyp_near {a : Vertex ℝ × Vertex ℝ} (ha : ProperArc a.1 a.2) (hc : segCenter a = ⟨4, 4⟩) (hr : segRadius a = 1)
    (e1 : a.1.pos = ⟨5, 4⟩) (e2 : a.2.pos = ⟨4, 5⟩) : ClearLineArc hyp a (1 / 100000) := by
  have hsw : ∀ pt : V2 ℝ, (pt.y = 4 ∨ 1 / 10 ≤ |pt.y - 4|) → (pt.x = 4 ∨ 1 / 10 ≤ |pt.x - 4|) → SweepClear a.1 a.2 pt (1 / 100000) := by
    intro pt h1 h2
    refine sweep_tenth hc ?_ ?_ <;> simp only [e1, e2]
    · rcases h1 with h | h
      · left; rw [h]; ring
      · right; rw [show ((5 : ℝ) - 4) * (pt.y - 4) - (4 - 4) * (pt.x - 4) = pt.y - 4 by ring]; exact h
    · rcases h2 with h | h
      · left; rw [h]; ring
      · right; rw [show ((4 : ℝ) - 4) * (pt.y - 4) - (5 - 4) * (pt.x - 4) = -(pt.x - 4) by ring, abs_neg]; exact h
  refine ⟨hyp_ok, hyp_ends ha hc hr (hsw _ (Or.inr (by norm_num [abs_of_pos])) (Or.inr (by norm_num [abs_of_pos])))
    (hsw _ (Or.inr (by norm_num [abs_of_pos])) (Or.inr (by norm_num [abs_of_pos]))) (by rw [show (⟨4, 4⟩ : V2 ℝ).x = 4 from rfl]; norm_num) (by rw [show (⟨4, 4⟩ : V2 ℝ).x = 4 from rfl]; norm_num), Or.inr ⟨102 / 175, ?_⟩, ?_⟩
  · rw [hc, hr, hyp_point, edist_lit _ _ (3 / 5) (by norm_num) (by norm_num)]; norm_num
  · intro t ht _
    rw [hc, hr, hyp_point] at ht
    have hsq := edist_sq (⟨-29 + 56 * t, 28 - 42 * t⟩ : V2 ℝ) ⟨4, 4⟩
    rw [show edist (⟨-29 + 56 * t, 28 - 42 * t⟩ : V2 ℝ) ⟨4, 4⟩ = 1 from ht] at hsq
    dsimp only at hsq
    have hz : (7 * t - 4) * (175 * t - 104) = 0 := by linear_combination -(1 / 4) * hsq
    rw [hyp_point]
    rcases mul_eq_zero.mp hz with h | h
    · have : t = 4 / 7 := by linarith
      subst this
      refine ⟨by norm_num, hsw _ ?_ ?_, ?_, ?_⟩ <;> simp only [e1, e2, ne_eq, V2.mk.injEq] <;> norm_num [abs_of_pos, abs_of_neg]
    · have : t = 104 / 175 := by linarith
      subst this
      refine ⟨by norm_num, hsw _ ?_ ?_, ?_, ?_⟩ <;> simp only [e1, e2, ne_eq, V2.mk.injEq] <;> norm_num [abs_of_pos, abs_of_neg]

theorem hyp_miss {s : Vertex ℝ × Vertex ℝ} (hs : IsLine s.1) (hr : (1 : ℝ) / 100000 ≤ |dirCross s.1.pos s.2.pos hyp.1.pos hyp.2.pos|)
    (h1 : 3 * s.1.x + 4 * s.1.y ≤ 20) (h2 : 3 * s.2.x + 4 * s.2.y ≤ 20) : ClearLines s hyp (1 / 100000) := by
  refine Or.inr ⟨Or.inl hr, ?_⟩
  rintro a b ⟨t, t0, t1, rfl⟩ ⟨u, u0, u1, rfl⟩
  rw [segCurve_line hs, segCurve_line hyp_line, hyp_point]
  have h3 := edist_sq (linePoint s.1.pos s.2.pos t) (⟨-29 + 56 * u, 28 - 42 * u⟩ : V2 ℝ)
  have h4 := edist_nonneg (linePoint s.1.pos s.2.pos t) (⟨-29 + 56 * u, 28 - 42 * u⟩ : V2 ℝ)
  have h5 : 3 * (linePoint s.1.pos s.2.pos t).x + 4 * (linePoint s.1.pos s.2.pos t).y ≤ 20 := by
    unfold linePoint
    simp only [Vertex.pos_x, Vertex.pos_y]
    nlinarith
  generalize linePoint s.1.pos s.2.pos t = P at h3 h4 h5 ⊢
  dsimp only at h3
  have h6 : (1 : ℝ) ≤ (P.x - (-29 + 56 * u)) ^ 2 + (P.y - (28 - 42 * u)) ^ 2 := by
    have : 5 ≤ 3 * (-29 + 56 * u - P.x) + 4 * (28 - 42 * u - P.y) := by linarith
    nlinarith [sq_nonneg (4 * (-29 + 56 * u - P.x) - 3 * (28 - 42 * u - P.y))]
  rw [← h3] at h6
  have : 1 ≤ edist P (⟨-29 + 56 * u, 28 - 42 * u⟩ : V2 ℝ) := by nlinarith
  linarith

theorem bayIn_seg {s : Vertex ℝ × Vertex ℝ} (hs : s ∈ bayIn.segs) : ∃ k < 3, s = (vtx bayIn k, vtx bayIn (k + 1)) := by
  rw [segs_range rfl (by decide)] at hs
  obtain ⟨k, hk, rfl⟩ := List.mem_map.mp hs
  exact ⟨k, List.mem_range.mp hk, rfl⟩

theorem box4_raw_seg {s : Vertex ℝ × Vertex ℝ} (hs : s ∈ (rawLoop box4 (-1)).segs) : ∃ k < 8, s = (vtx (rawLoop box4 (-1)) k, vtx (rawLoop box4 (-1)) (k + 1)) := by
  rw [segs_range box4_raw_full.closed box4_raw_full.two] at hs
  obtain ⟨k, hk, rfl⟩ := List.mem_map.mp hs
  rw [List.mem_range, box4_len8] at hk
  exact ⟨k, hk, rfl⟩

theorem islet_finds : FindsPairs (rawLoop box4 (-1)) bayIn (1 / 100000) := by
  intro s1 h1 s2 h2 hbox
  obtain ⟨k, hk, rfl⟩ := box4_raw_seg h1
  obtain ⟨j, hj, rfl⟩ := bayIn_seg h2
  obtain ⟨v0, v1, v2, v3, v4, v5, v6, v7, v8, v9⟩ := box4_raw_vtx
  obtain ⟨w0, w1, w2, w3, w4⟩ := bayIn_vtx
  have hapart : ∀ c : AABB ℝ, BoxIn (segBox (vtx bayIn j, vtx bayIn (j + 1))) c → (c.maxX ≤ -2 ∨ c.maxY ≤ -2) → False := by
    intro c hc hd
    have hb := boxIn_apart (e := 1 / 100000) (box4_boxes k hk) hc (by
      interval_cases k <;> simp only [boxTable] <;> rcases hd with h | h
      all_goals first | (right; right; left; linarith; done) | (right; right; right; linarith; done))
    have : (segBox (vtx (rawLoop box4 (-1)) k, vtx (rawLoop box4 (-1)) (k + 1))).overlaps ((segBox (vtx bayIn j, vtx bayIn (j + 1))).grow (1 / 100000)) = true := hbox
    rw [hb] at this
    exact Bool.false_ne_true this
  interval_cases j
  · refine absurd (hapart ⟨-29, -14, -29, 28⟩ ?_ (Or.inl (by norm_num))) id
    simp only [Nat.reduceAdd, w0, w1]; rw [line_box]; norm_num [BoxIn]
  · clear hapart hbox h1 h2
    have hw : (vtx bayIn 1, vtx bayIn (1 + 1)) = hyp := by simp only [Nat.reduceAdd, w1, w2, hyp]
    rw [hw]
    refine finds_pair (by norm_num) ?_
    interval_cases k <;> simp only [Nat.reduceAdd, v0, v1, v2, v3, v4, v5, v6, v7, v8]
    · refine .lines (box4_line _ _) hyp_line (hyp_miss (box4_line _ _) ?_ (by norm_num) (by norm_num))
      unfold dirCross hyp Vertex.pos; norm_num [abs_of_pos, abs_of_neg]
    · obtain ⟨q1, q2, q3⟩ := quarter (c := ⟨4, 0⟩) (p := ⟨4, -1⟩) (q := ⟨5, 0⟩) (m := ⟨0, 0, 0⟩) (b := 0) (by norm_num) (by norm_num)
      refine .arcLine q3 hyp_line (hyp_far q3 q1 q2 (box4_sweep q1 ?_ ?_) (box4_sweep q1 ?_ ?_) ?_ ?_ ?_) <;> norm_num [abs_of_pos, abs_of_neg, Vertex.pos]
    · refine .lines (box4_line _ _) hyp_line (Or.inl ⟨⟨⟨5, 5 / 2⟩, ⟨5 / 8, by norm_num, by norm_num, ?_⟩, ⟨17 / 28, by norm_num, by norm_num, ?_⟩⟩, ?_⟩)
      · rw [segCurve_line (box4_line _ _)]; unfold linePoint Vertex.pos; norm_num
      · rw [segCurve_line hyp_line, hyp_point]; norm_num
      · unfold dirCross hyp Vertex.pos; norm_num [abs_of_pos, abs_of_neg]
    · obtain ⟨q1, q2, q3⟩ := quarter (c := ⟨4, 4⟩) (p := ⟨5, 4⟩) (q := ⟨4, 5⟩) (m := ⟨0, 0, 0⟩) (b := 0) (by norm_num) (by norm_num)
      exact .arcLine q3 hyp_line (hyp_near q3 q1 q2 rfl rfl)
    · refine .lines (box4_line _ _) hyp_line (Or.inl ⟨⟨⟨5 / 3, 5⟩, ⟨7 / 12, by norm_num, by norm_num, ?_⟩, ⟨23 / 42, by norm_num, by norm_num, ?_⟩⟩, ?_⟩)
      · rw [segCurve_line (box4_line _ _)]; unfold linePoint Vertex.pos; norm_num
      · rw [segCurve_line hyp_line, hyp_point]; norm_num
      · unfold dirCross hyp Vertex.pos; norm_num [abs_of_pos, abs_of_neg]
    · obtain ⟨q1, q2, q3⟩ := quarter (c := ⟨0, 4⟩) (p := ⟨0, 5⟩) (q := ⟨-1, 4⟩) (m := ⟨0, 0, 0⟩) (b := 0) (by norm_num) (by norm_num)
      refine .arcLine q3 hyp_line (hyp_far q3 q1 q2 (box4_sweep q1 ?_ ?_) (box4_sweep q1 ?_ ?_) ?_ ?_ ?_) <;> norm_num [abs_of_pos, abs_of_neg, Vertex.pos]
    · refine .lines (box4_line _ _) hyp_line (hyp_miss (box4_line _ _) ?_ (by norm_num) (by norm_num))
      unfold dirCross hyp Vertex.pos; norm_num [abs_of_pos, abs_of_neg]
    · obtain ⟨q1, q2, q3⟩ := quarter (c := ⟨0, 0⟩) (p := ⟨-1, 0⟩) (q := ⟨0, -1⟩) (m := ⟨0, 0, 0⟩) (b := 0) (by norm_num) (by norm_num)
      refine .arcLine q3 hyp_line (hyp_far q3 q1 q2 (box4_sweep q1 ?_ ?_) (box4_sweep q1 ?_ ?_) ?_ ?_ ?_) <;> norm_num [abs_of_pos, abs_of_neg, Vertex.pos]
  · refine absurd (hapart ⟨-29, -14, 27, -14⟩ ?_ (Or.inr (by norm_num))) id
    simp only [Nat.reduceAdd, w2, w3]; rw [line_box]; norm_num [BoxIn]

/-! ## Orientation -/

theorem bayIn_area : bayIn.area = -1176 := by
  obtain ⟨w0, w1, w2, w3, w4⟩ := bayIn_vtx
  rw [area_eq, if_pos (show bayIn.closed = true from rfl), segs_range rfl (by decide)]
  have hlen : bayIn.verts.length = 3 := rfl
  rw [hlen]
  simp only [List.range, List.range.loop, List.map_cons, List.map_nil, List.sum_cons, List.sum_nil, areaTerm, Nat.reduceAdd, w0, w1, w2, w3, bulgeIsZero_true (box4_line _ _), if_true]
  norm_num

theorem arc_term {x y x' y' b' : ℝ} (h : (x - x') ^ 2 + (y - y') ^ 2 = 2) : x * y' - y * x' - 2 ≤ areaTerm (⟨x, y, qb⟩, ⟨x', y', b'⟩) := by
  unfold areaTerm
  rw [if_neg (by rw [bulgeIsZero_false (qb_arc x y)]; exact Bool.false_ne_true), doubleArcArea_eq _ _ (ne_of_gt qb_pos)]
  dsimp only
  rw [h]
  have h1 : 0 < Real.arctan qb := Real.arctan_pos.mpr qb_pos
  have h2 : 0 ≤ 4 * Real.arctan qb * arcRadius (⟨x, y, qb⟩ : Vertex ℝ).pos (⟨x', y', b'⟩ : Vertex ℝ).pos qb ^ 2 := by positivity
  have h3 : (1 + qb ^ 2) / (4 * qb) * 2 ≤ 2 := by
    rw [div_mul_eq_mul_div, div_le_iff₀ (by linarith [qb_pos])]
    nlinarith [qb_eq, qb_bounds.1]
  have h4 := qb_pos
  linarith

theorem box4_raw_area : 0 < (rawLoop box4 (-1)).area := by
  obtain ⟨v0, v1, v2, v3, v4, v5, v6, v7, v8, v9⟩ := box4_raw_vtx
  rw [area_eq, if_pos box4_raw_full.closed, segs_range box4_raw_full.closed box4_raw_full.two, box4_len8]
  simp only [List.range, List.range.loop, List.map_cons, List.map_nil, List.sum_cons, List.sum_nil, Nat.reduceAdd, v0, v1, v2, v3, v4, v5, v6, v7, v8]
  have l1 : ∀ x y x' y' b : ℝ, areaTerm (⟨x, y, 0⟩, ⟨x', y', b⟩) = x * y' - y * x' := by
    intro x y x' y' b
    unfold areaTerm
    rw [if_pos (bulgeIsZero_true (box4_line _ _))]; dsimp only; ring
  rw [l1, l1, l1, l1]
  have a1 := arc_term (x := 4) (y := -1) (x' := 5) (y' := 0) (b' := 0) (by norm_num)
  have a2 := arc_term (x := 5) (y := 4) (x' := 4) (y' := 5) (b' := 0) (by norm_num)
  have a3 := arc_term (x := 0) (y := 5) (x' := -1) (y' := 4) (b' := 0) (by norm_num)
  have a4 := arc_term (x := -1) (y := 0) (x' := 0) (y' := -1) (b' := 0) (by norm_num)
  linarith

theorem line_term (x y x' y' b : ℝ) : areaTerm (⟨x, y, 0⟩, ⟨x', y', b⟩) = x * y' - y * x' := by
  unfold areaTerm
  rw [if_pos (bulgeIsZero_true (box4_line _ _))]; dsimp only; ring

theorem bay_area : bay.area = -1350 := by
  obtain ⟨w0, w1, w2, w3, w4⟩ := bay_vtx
  rw [area_eq, if_pos (show bay.closed = true from rfl), segs_range rfl (by decide)]
  have hlen : bay.verts.length = 3 := rfl
  rw [hlen]
  simp only [List.range, List.range.loop, List.map_cons, List.map_nil, List.sum_cons, List.sum_nil, Nat.reduceAdd, w0, w1, w2, w3, line_term]
  norm_num

theorem box4_area : box4.area = 16 := by
  obtain ⟨w0, w1, w2, w3, w4, w5⟩ := box4_vtx
  rw [area_eq, if_pos (show box4.closed = true from rfl), segs_range rfl (by decide)]
  have hlen : box4.verts.length = 4 := rfl
  rw [hlen]
  simp only [List.range, List.range.loop, List.map_cons, List.map_nil, List.sum_cons, List.sum_nil, Nat.reduceAdd, w0, w1, w2, w3, w4, line_term]
  norm_num

/-! ## The shape and its offset loops -/

/-- the island in the bay -/
structure Islet (s : Shape ℝ) (a b : IndexedPline ℝ) : Prop where
  ccw : s.ccw = [a]
  cw : s.cw = [b]
  island : a.pline = box4
  bay : b.pline = bay
  serve1 : a.index.Serves box4
  serve2 : b.index.Serves Cavc.bay

theorem Islet.loops {s : Shape ℝ} {a b : IndexedPline ℝ} (h : Islet s a b) : s.loops = [a, b] := by
  unfold Shape.loops; rw [h.ccw, h.cw]; rfl

theorem islet_exists (env : Env ℝ) (henv : env.Lawful) : ∃ s a b, Shape.fromPlines env [box4, bay] = .ok s ∧ Islet s a b := by
  obtain ⟨s, hs, hw, h1, h2⟩ := C45_from_plines env henv [box4, bay]
  have e1 : Scalar.lt box4.area 0 = false := by rw [RealScalar.lt_eq]; exact decide_eq_false (by rw [box4_area]; norm_num)
  have e2 : Scalar.lt bay.area 0 = true := by rw [RealScalar.lt_eq]; exact decide_eq_true (by rw [bay_area]; norm_num)
  have c1 : s.ccw.map IndexedPline.pline = [box4] := by
    rw [h1]
    simp only [List.filter, e1, e2]
    rfl
  have c2 : s.cw.map IndexedPline.pline = [bay] := by
    rw [h2]
    simp only [List.filter, e1, e2]
    rfl
  obtain ⟨a, ha, ha'⟩ := List.map_eq_singleton_iff.mp c1
  obtain ⟨b, hb, hb'⟩ := List.map_eq_singleton_iff.mp c2
  have hl : s.loops = [a, b] := by unfold Shape.loops; rw [ha, hb]; rfl
  refine ⟨s, a, b, hs, ha, hb, ha', hb', ?_, ?_⟩
  · rw [← ha']; exact (hw.ready a (by rw [hl]; simp)).serves
  · rw [← hb']; exact (hw.ready b (by rw [hl]; simp)).serves

noncomputable def isletOpts : ShapeOffsetOptions ℝ := ⟨1 / 100000, 1 / 10000, 1 / 10000⟩

noncomputable def isletOut (env : Env ℝ) : OffsetLoop ℝ := ⟨0, IndexedPline.new env (rawLoop box4 (-1))⟩
noncomputable def isletIn (env : Env ℝ) : OffsetLoop ℝ := ⟨1, IndexedPline.new env bayIn⟩

theorem islet_loops (env : Env ℝ) (henv : env.Lawful) {s : Shape ℝ} {a b : IndexedPline ℝ} (h : Islet s a b) :
    ShapeLoops env s (-1) isletOpts [isletOut env] [isletIn env] := by
  have h1 : Scalar.lt (rawLoop box4 (-1)).area 0 = false := by rw [RealScalar.lt_eq]; exact decide_eq_false (not_lt.mpr box4_raw_area.le)
  have h2 : Scalar.lt bayIn.area 0 = true := by rw [RealScalar.lt_eq]; exact decide_eq_true (by rw [bayIn_area]; norm_num)
  have h3 : Scalar.gt bayIn.area 0 = false := by rw [RealScalar.gt_eq]; exact decide_eq_false (by rw [bayIn_area]; norm_num)
  have h4 : Scalar.gt (-1 : ℝ) 0 = false := by rw [RealScalar.gt_eq]; exact decide_eq_false (by norm_num)
  have t1 : TurnedOver true (-1) (rawLoop box4 (-1)) = false := by unfold TurnedOver; rw [if_pos rfl, h4]; rfl
  have t2 : TurnedOver false (-1) bayIn = false := by
    unfold TurnedOver; rw [if_neg Bool.false_ne_true, h3, Bool.and_false]
  refine ⟨⟨[[rawLoop box4 (-1)], [bayIn]], ?_, ?_, ?_⟩, ?_⟩
  · rw [h.loops]
    refine .cons ?_ (.cons ?_ .nil)
    · rw [h.island]; exact box4_offset env henv _ h.serve1
    · rw [h.bay]; exact bay_offset env henv _ h.serve2
  · rw [h.ccw]
    simp only [List.zipIdx, List.flatMap, List.map_cons, List.map_nil, List.filter, List.length, Nat.zero_add, Nat.lt_one_iff, decide_true, Nat.lt_irrefl, one_ne_zero, decide_false, t1, t2, h1, h2]
    rfl
  · rw [h.ccw]
    simp only [List.zipIdx, List.flatMap, List.map_cons, List.map_nil, List.filter, List.length, Nat.zero_add, Nat.lt_one_iff, decide_true, Nat.lt_irrefl, one_ne_zero, decide_false, t1, t2, h1, h2]
    rfl
  · intro l hl
    rcases List.mem_pair.mp hl with rfl | rfl <;> rfl

/-! ## The cuts -/

noncomputable def isletCuts : Nat → List Cut
  | 0 => [(2, 5 / 8), (4, 7 / 12)]
  | 1 => [(1, 23 / 42), (1, 17 / 28)]
  | _ => []

theorem islet_two {env : Env ℝ} {i : Nat} {l : OffsetLoop ℝ} (h : ([isletOut env] ++ [isletIn env])[i]? = some l) : (i = 0 ∧ l = isletOut env) ∨ (i = 1 ∧ l = isletIn env) := by
  rcases i with _ | _ | i
  · left; exact ⟨rfl, (Option.some.inj h).symm⟩
  · right; exact ⟨rfl, (Option.some.inj h).symm⟩
  · simp at h

theorem out_pline (env : Env ℝ) : (isletOut env).ip.pline = rawLoop box4 (-1) := rfl
theorem in_pline (env : Env ℝ) : (isletIn env).ip.pline = bayIn := rfl

theorem on_out {X : V2 ℝ} (h : OnPline (rawLoop box4 (-1)) X) : ∃ k < 8, ∃ t, 0 ≤ t ∧ t ≤ 1 ∧ X = curveAt (rawLoop box4 (-1)) k t := by
  obtain ⟨s, hs, t, t0, t1, rfl⟩ := h
  obtain ⟨k, hk, rfl⟩ := box4_raw_seg hs
  exact ⟨k, hk, t, t0, t1, (curveAt_vtx (by rw [box4_len8]; norm_num) _ _).symm⟩

theorem on_in {X : V2 ℝ} (h : OnPline bayIn X) : ∃ k < 3, ∃ t, 0 ≤ t ∧ t ≤ 1 ∧ X = curveAt bayIn k t := by
  obtain ⟨s, hs, t, t0, t1, rfl⟩ := h
  obtain ⟨k, hk, rfl⟩ := bayIn_seg hs
  exact ⟨k, hk, t, t0, t1, (curveAt_vtx (by decide) _ _).symm⟩

theorem out_points : curveAt (rawLoop box4 (-1)) 2 (5 / 8) = ⟨5, 5 / 2⟩ ∧ curveAt (rawLoop box4 (-1)) 4 (7 / 12) = ⟨5 / 3, 5⟩ := by
  rw [(box4_curve _).2.2.1, (box4_curve _).2.2.2.2.1]; norm_num

theorem in_points : curveAt bayIn 1 (23 / 42) = ⟨5 / 3, 5⟩ ∧ curveAt bayIn 1 (17 / 28) = ⟨5, 5 / 2⟩ := by
  rw [(bayIn_curve _).2.1, (bayIn_curve _).2.1]; norm_num

theorem islet_cuts (env : Env ℝ) : ShapeCuts ([isletOut env] ++ [isletIn env]) (1 / 100000) 1 isletCuts := by
  obtain ⟨o1, o2⟩ := out_points
  obtain ⟨i1, i2⟩ := in_points
  obtain ⟨v0, v1, v2, v3, v4, v5, v6, v7, v8, v9⟩ := box4_raw_vtx
  obtain ⟨w0, w1, w2, w3, w4⟩ := bayIn_vtx
  have h8 : 0 < (rawLoop box4 (-1)).verts.length := by rw [box4_len8]; norm_num
  have h3 : 0 < bayIn.verts.length := by decide
  refine ⟨?_, ?_, ?_, ?_, ?_, ?_, ?_, ?_⟩
  · intro i l hl c hc
    rcases islet_two hl with ⟨rfl, rfl⟩ | ⟨rfl, rfl⟩
    · refine ⟨1, isletIn env, by norm_num, rfl, ?_⟩
      rw [out_pline, in_pline]
      rcases List.mem_pair.mp hc with rfl | rfl
      · dsimp only; rw [o1, ← i2]; exact on_curve rfl (by decide) (by decide) (by norm_num) (by norm_num)
      · dsimp only; rw [o2, ← i1]; exact on_curve rfl (by decide) (by decide) (by norm_num) (by norm_num)
    · refine ⟨0, isletOut env, by norm_num, rfl, ?_⟩
      rw [out_pline, in_pline]
      rcases List.mem_pair.mp hc with rfl | rfl
      · dsimp only; rw [i1, ← o2]; exact on_curve box4_raw_full.closed box4_raw_full.two (by rw [box4_len8]; norm_num) (by norm_num) (by norm_num)
      · dsimp only; rw [i2, ← o1]; exact on_curve box4_raw_full.closed box4_raw_full.two (by rw [box4_len8]; norm_num) (by norm_num) (by norm_num)
  · intro i l hl j m hm hji k t hk t0 t1 hon
    rcases islet_two hl with ⟨rfl, rfl⟩ | ⟨rfl, rfl⟩ <;> rcases islet_two hm with ⟨rfl, rfl⟩ | ⟨rfl, rfl⟩
    · exact absurd rfl hji
    · rw [out_pline] at hk hon
      rw [in_pline] at hon
      rw [box4_len8] at hk
      obtain ⟨k', hk', u, u0, u1, e⟩ := on_in hon
      rcases (islet_meet hk hk' t0 t1 u0 u1).mp e with ⟨rfl, rfl, -, -⟩ | ⟨rfl, rfl, -, -⟩ <;> simp [isletCuts]
    · rw [in_pline] at hk hon
      rw [out_pline] at hon
      obtain ⟨k', hk', u, u0, u1, e⟩ := on_out hon
      rcases (islet_meet hk' hk u0 u1 t0 t1).mp e.symm with ⟨-, -, rfl, rfl⟩ | ⟨-, -, rfl, rfl⟩ <;> simp [isletCuts]
    · exact absurd rfl hji
  · intro i
    rcases i with _ | _ | i
    · simp [isletCuts]
    · simp only [isletCuts, List.nodup_cons, List.mem_singleton, Prod.mk.injEq, List.not_mem_nil, not_false_eq_true, List.nodup_nil, and_true]; norm_num
    · simp [isletCuts]
  · intro i l hl c hc
    rcases islet_two hl with ⟨rfl, rfl⟩ | ⟨rfl, rfl⟩
    · rw [out_pline, box4_len8]
      rcases List.mem_pair.mp hc with rfl | rfl <;> norm_num
    · rw [in_pline]
      rcases List.mem_pair.mp hc with rfl | rfl <;> decide
  · intro i l hl c hc
    have key : ∀ {v w : Vertex ℝ} {t : ℝ} {X : V2 ℝ}, IsLine v → 0 < t → t < 1 → segCurve v w t = X → FarApart (1 / 100000) X v.pos → FarApart (1 / 100000) X w.pos → InnerCut v w (1 / 100000) t :=
      fun hv a b e c d => ⟨a, b, by rw [e]; exact c.fuzzy, by rw [e]; exact d.fuzzy, Or.inl hv, Or.inl hv⟩
    unfold CutOk
    rcases islet_two hl with ⟨rfl, rfl⟩ | ⟨rfl, rfl⟩
    · rw [out_pline]
      rcases List.mem_pair.mp hc with rfl | rfl
      · refine key (X := ⟨5, 5 / 2⟩) ?_ (by norm_num) (by norm_num) ?_ ?_ ?_
        · rw [v2]; exact box4_line _ _
        · rw [← curveAt_vtx h8]; exact o1
        · simp only [v2, Vertex.pos, FarApart]; norm_num [abs_of_pos, abs_of_neg]
        · simp only [Nat.reduceAdd, v3, Vertex.pos, FarApart]; norm_num [abs_of_pos, abs_of_neg]
      · refine key (X := ⟨5 / 3, 5⟩) ?_ (by norm_num) (by norm_num) ?_ ?_ ?_
        · rw [v4]; exact box4_line _ _
        · rw [← curveAt_vtx h8]; exact o2
        · simp only [v4, Vertex.pos, FarApart]; norm_num [abs_of_pos, abs_of_neg]
        · simp only [Nat.reduceAdd, v5, Vertex.pos, FarApart]; norm_num [abs_of_pos, abs_of_neg]
    · rw [in_pline]
      rcases List.mem_pair.mp hc with rfl | rfl
      · refine key (X := ⟨5 / 3, 5⟩) ?_ (by norm_num) (by norm_num) ?_ ?_ ?_
        · rw [w1]; exact box4_line _ _
        · rw [← curveAt_vtx h3]; exact i1
        · simp only [w1, Vertex.pos, FarApart]; norm_num [abs_of_pos, abs_of_neg]
        · simp only [Nat.reduceAdd, w2, Vertex.pos, FarApart]; norm_num [abs_of_pos, abs_of_neg]
      · refine key (X := ⟨5, 5 / 2⟩) ?_ (by norm_num) (by norm_num) ?_ ?_ ?_
        · rw [w1]; exact box4_line _ _
        · rw [← curveAt_vtx h3]; exact i2
        · simp only [w1, Vertex.pos, FarApart]; norm_num [abs_of_pos, abs_of_neg]
        · simp only [Nat.reduceAdd, w2, Vertex.pos, FarApart]; norm_num [abs_of_pos, abs_of_neg]
  · have hp : ∀ {i : Nat} {l : OffsetLoop ℝ}, ([isletOut env] ++ [isletIn env])[i]? = some l → ∀ c ∈ isletCuts i, curveAt l.ip.pline c.1 c.2 = ⟨5, 5 / 2⟩ ∨ curveAt l.ip.pline c.1 c.2 = ⟨5 / 3, 5⟩ := by
      intro i l hl c hc
      rcases islet_two hl with ⟨rfl, rfl⟩ | ⟨rfl, rfl⟩
      · rcases List.mem_pair.mp hc with rfl | rfl
        · exact Or.inl o1
        · exact Or.inr o2
      · rcases List.mem_pair.mp hc with rfl | rfl
        · exact Or.inr i1
        · exact Or.inl i2
    intro i l hl c hc j m hm c' hc'
    rcases hp hl c hc with h | h <;> rcases hp hm c' hc' with h' | h' <;> rw [h, h']
    · exact Or.inl rfl
    · right; left; norm_num [abs_of_pos]
    · right; left; norm_num [abs_of_pos]
    · exact Or.inl rfl
  · intro i l hl c hc c' hc' _ _
    refine Or.inl ?_
    rcases islet_two hl with ⟨rfl, rfl⟩ | ⟨rfl, rfl⟩
    · rw [out_pline]
      rcases List.mem_pair.mp hc with rfl | rfl
      · rw [v2]; exact box4_line _ _
      · rw [v4]; exact box4_line _ _
    · rw [in_pline]
      rcases List.mem_pair.mp hc with rfl | rfl <;> rw [w1] <;> exact box4_line _ _
  · intro i c hc
    rcases i with _ | _ | i
    · rcases List.mem_pair.mp hc with rfl | rfl
      · exact ⟨(4, 7 / 12), by simp [isletCuts], by simp⟩
      · exact ⟨(2, 5 / 8), by simp [isletCuts], by simp⟩
    · rcases List.mem_pair.mp hc with rfl | rfl
      · exact ⟨(1, 17 / 28), by simp [isletCuts], by simp only [ne_eq, Prod.mk.injEq]; norm_num⟩
      · exact ⟨(1, 23 / 42), by simp [isletCuts], by simp only [ne_eq, Prod.mk.injEq]; norm_num⟩
    · simp [isletCuts] at hc

end Cavc
