import Verif.Props.RegionExample

/-! # C59: the hypotheses are met by a disc, made of two arcs, and a square -/

set_option linter.unusedVariables false

namespace Cavc
open Pline RealScalar

/-- the disc of radius 1 around `(0, 3)`, two half circles, counter clockwise -/
noncomputable def disc : Pline ℝ := ⟨[⟨-1, 3, 1⟩, ⟨1, 3, 1⟩], true⟩

theorem disc_segs : disc.segs = [(⟨-1, 3, 1⟩, ⟨1, 3, 1⟩), (⟨1, 3, 1⟩, ⟨-1, 3, 1⟩)] := rfl

theorem not_line_one (x y : ℝ) : ¬ IsLine ⟨x, y, 1⟩ := by unfold IsLine; norm_num

theorem arctan_half : 4 * Real.arctan 1 = Real.pi := by rw [Real.arctan_one]; ring

theorem edist_half1 : edist (⟨-1, 3⟩ : V2 ℝ) ⟨1, 3⟩ = 2 := edist_eq_of_sq (by norm_num) (by norm_num)
theorem edist_half2 : edist (⟨1, 3⟩ : V2 ℝ) ⟨-1, 3⟩ = 2 := edist_eq_of_sq (by norm_num) (by norm_num)

theorem disc_center : arcCenter (⟨-1, 3⟩ : V2 ℝ) ⟨1, 3⟩ 1 = ⟨0, 3⟩ ∧ arcCenter (⟨1, 3⟩ : V2 ℝ) ⟨-1, 3⟩ 1 = ⟨0, 3⟩ ∧
    arcRadius (⟨-1, 3⟩ : V2 ℝ) ⟨1, 3⟩ 1 = 1 ∧ arcRadius (⟨1, 3⟩ : V2 ℝ) ⟨-1, 3⟩ 1 = 1 := by
  refine ⟨?_, ?_, ?_, ?_⟩
  · norm_num [arcCenter]
  · norm_num [arcCenter]
  · rw [arcRadius, edist_half1]; norm_num
  · rw [arcRadius, edist_half2]; norm_num

theorem disc_point (t : ℝ) : segCurve (⟨-1, 3, 1⟩ : Vertex ℝ) ⟨1, 3, 1⟩ t = ⟨-Real.cos (t * Real.pi), 3 - Real.sin (t * Real.pi)⟩ ∧
    segCurve (⟨1, 3, 1⟩ : Vertex ℝ) ⟨-1, 3, 1⟩ t = ⟨Real.cos (t * Real.pi), 3 + Real.sin (t * Real.pi)⟩ := by
  obtain ⟨c1, c2, -, -⟩ := disc_center
  constructor
  · rw [segCurve_arc (not_line_one _ _)]
    simp only [arcPoint, Vertex.pos, c1, rotV, arctan_half, V2.ext_iff']
    constructor <;> ring
  · rw [segCurve_arc (not_line_one _ _)]
    simp only [arcPoint, Vertex.pos, c2, rotV, arctan_half, V2.ext_iff']
    constructor <;> ring

theorem disc_vtx : vtx disc 0 = ⟨-1, 3, 1⟩ ∧ vtx disc 1 = ⟨1, 3, 1⟩ ∧ vtx disc 2 = ⟨-1, 3, 1⟩ := ⟨rfl, rfl, vtx_add disc 0⟩

theorem disc_curve (t : ℝ) : curveAt disc 0 t = ⟨-Real.cos (t * Real.pi), 3 - Real.sin (t * Real.pi)⟩ ∧
    curveAt disc 1 t = ⟨Real.cos (t * Real.pi), 3 + Real.sin (t * Real.pi)⟩ := by
  have hn : 0 < disc.verts.length := by simp [disc]
  obtain ⟨v0, v1, v2⟩ := disc_vtx
  constructor
  · rw [curveAt_vtx hn, v0, v1]; exact (disc_point t).1
  · rw [curveAt_vtx hn, v1, v2]; exact (disc_point t).2

theorem disc_proper : ProperArc (⟨-1, 3, 1⟩ : Vertex ℝ) ⟨1, 3, 1⟩ ∧ ProperArc (⟨1, 3, 1⟩ : Vertex ℝ) ⟨-1, 3, 1⟩ := by
  constructor <;> refine ⟨not_line_one _ _, by norm_num, ?_⟩ <;> simp only [Vertex.pos, ne_eq, V2.ext_iff'] <;> norm_num

theorem disc_orientation : disc.orientation = .counterClockwise := by
  obtain ⟨c1, c2, r1, r2⟩ := disc_center
  have : ¬ (disc.area < 0) := by
    unfold area
    rw [disc_segs]
    have h1 := doubleArcArea_eq (⟨-1, 3, 1⟩ : Vertex ℝ) ⟨1, 3, 1⟩ (by norm_num)
    have h2 := doubleArcArea_eq (⟨1, 3, 1⟩ : Vertex ℝ) ⟨-1, 3, 1⟩ (by norm_num)
    simp only [Vertex.pos, r1, r2, c1, c2] at h1 h2
    simp [disc, areaStep, bulgeIsZero_false (not_line_one _ _), h1, h2]
    have := Real.pi_pos
    apply div_nonneg _ (by norm_num)
    linarith
  unfold orientation
  rw [show disc.closed = true from rfl]
  simp [this]

theorem disc_winding (pt : V2 ℝ) : disc.windingNumber pt = if (0 - pt.x) ^ 2 + (3 - pt.y) ^ 2 < 1 then 1 else 0 := by
  obtain ⟨c1, c2, r1, r2⟩ := disc_center
  have s1 := segArcRadiusAndCenter_eq (⟨-1, 3, 1⟩ : Vertex ℝ) ⟨1, 3, 1⟩ (by norm_num) disc_proper.1.ne
  have s2 := segArcRadiusAndCenter_eq (⟨1, 3, 1⟩ : Vertex ℝ) ⟨-1, 3, 1⟩ (by norm_num) disc_proper.2.ne
  simp only [Vertex.pos, r1, r2, c1, c2] at s1 s2
  have p1 : (⟨-1, 3, 1⟩ : Vertex ℝ).bulgeIsPos = true := by simp [Vertex.bulgeIsPos]
  have p2 : (⟨1, 3, 1⟩ : Vertex ℝ).bulgeIsPos = true := by simp [Vertex.bulgeIsPos]
  unfold windingNumber
  rw [disc_segs]
  simp [disc, vertexCount, segWinding, bulgeIsZero_false (not_line_one _ _), arcWinding, s1, s2, p1, p2, isLeft, perpDotTestValue, Vertex.pos, distSquared_eq]
  norm_num
  by_cases hc : pt.x ^ 2 + (3 - pt.y) ^ 2 < 1
  · have hx1 : -1 < pt.x := by nlinarith [sq_nonneg (3 - pt.y), sq_nonneg (pt.x + 1)]
    have hx2 : pt.x < 1 := by nlinarith [sq_nonneg (3 - pt.y), sq_nonneg (pt.x - 1)]
    rcases le_or_gt 3 pt.y with h | h
    · simp [h, not_lt.mpr h, hc, hx1, hx2, hx1.le, hx2.le, hx2.not_gt, hx1.not_gt]
    · simp [h, not_le.mpr h, h.le, hc, hx1, hx2, hx1.le, hx2.le, hx2.not_gt, hx1.not_gt]
  · rcases le_or_gt 3 pt.y with h | h
    · simp [h, not_lt.mpr h, hc]
    · simp [h, not_le.mpr h, hc]

theorem disc_winds : WindsOnce disc := by
  intro pt _
  rw [disc_winding, disc_orientation]
  split_ifs
  · right; rfl
  · left; rfl

theorem fz_far (u v : V2 ℝ) (h : 1 / 2 ≤ |u.x - v.x| ∨ 1 / 2 ≤ |u.y - v.y|) : u.fuzzyEqEps v (1 / 1000 : ℝ) = false := by
  rw [← Bool.not_eq_true, V2.fuzzyEqEps_iff]
  rintro ⟨c, d⟩
  rcases h with g | g <;> linarith

theorem disc_full : FullLoop disc (1 / 1000) := by
  obtain ⟨v0, v1, v2⟩ := disc_vtx
  refine ⟨rfl, by simp [disc], ?_⟩
  intro i
  have hi : ∀ j, vtx disc j = vtx disc (j % 2) := fun j => (vtx_mod _ j).symm
  have hcase : i % 2 = 0 ∨ i % 2 = 1 := by omega
  rw [hi i, hi (i + 1)]
  rcases hcase with g | g
  · rw [show (i + 1) % 2 = 1 by omega, g, v0, v1]
    exact ⟨Or.inr ⟨not_line_one _ _, by norm_num⟩, fz_far _ _ (Or.inl (by norm_num [Vertex.pos]))⟩
  · rw [show (i + 1) % 2 = 0 by omega, g, v0, v1]
    exact ⟨Or.inr ⟨not_line_one _ _, by norm_num⟩, fz_far _ _ (Or.inl (by norm_num [Vertex.pos]))⟩

theorem tan_eighth : 1 / 100000000 ≤ |Real.tan (1 / 2 * Real.arctan 1)| := by
  have h3 := Real.pi_gt_three
  have h4 := Real.pi_pos
  rw [Real.arctan_one]
  have := Real.lt_tan (x := 1 / 2 * (Real.pi / 4)) (by linarith) (by linarith)
  rw [abs_of_pos (by linarith)]
  linarith

theorem half_trig : Real.cos (1 / 2 * Real.pi) = 0 ∧ Real.sin (1 / 2 * Real.pi) = 1 := by
  rw [show 1 / 2 * Real.pi = Real.pi / 2 by ring]
  exact ⟨Real.cos_pi_div_two, Real.sin_pi_div_two⟩

theorem disc_cuts : GoodCuts disc (1 / 1000) [(0, 1 / 2), (1, 1 / 2)] := by
  obtain ⟨v0, v1, v2⟩ := disc_vtx
  obtain ⟨hcos, hsin⟩ := half_trig
  refine ⟨by simp, ?_, ?_, ?_, ?_⟩
  · intro c hc
    simp only [List.mem_cons, List.not_mem_nil, or_false] at hc
    rcases hc with rfl | rfl <;> simp [disc]
  · intro c hc
    simp only [List.mem_cons, List.not_mem_nil, or_false] at hc
    rcases hc with rfl | rfl
    · unfold CutOk
      simp only [Nat.reduceAdd, v0, v1]
      refine ⟨by norm_num, by norm_num, fz_far _ _ ?_, fz_far _ _ ?_, Or.inr ?_, Or.inr ?_⟩
      · left; rw [(disc_point _).1]; simp only [hcos, Vertex.pos]; norm_num
      · left; rw [(disc_point _).1]; simp only [hcos, Vertex.pos]; norm_num
      · convert tan_eighth using 4; norm_num
      · convert tan_eighth using 4; norm_num
    · unfold CutOk
      simp only [Nat.reduceAdd, v1, v2]
      refine ⟨by norm_num, by norm_num, fz_far _ _ ?_, fz_far _ _ ?_, Or.inr ?_, Or.inr ?_⟩
      · left; rw [(disc_point _).2]; simp only [hcos, Vertex.pos]; norm_num
      · left; rw [(disc_point _).2]; simp only [hcos, Vertex.pos]; norm_num
      · convert tan_eighth using 4; norm_num
      · convert tan_eighth using 4; norm_num
  · intro c hc c' hc' hne
    simp only [List.mem_cons, List.not_mem_nil, or_false] at hc hc'
    rcases hc with rfl | rfl <;> rcases hc' with rfl | rfl <;>
      first
        | exact absurd rfl hne
        | (simp only [(disc_curve _).1, (disc_curve _).2, FarApart, hcos, hsin]; right; norm_num)
  · intro c hc c' hc' h1 h2
    simp only [List.mem_cons, List.not_mem_nil, or_false] at hc hc'
    rcases hc with rfl | rfl <;> rcases hc' with rfl | rfl
    · exact absurd h2 (lt_irrefl _)
    · simp at h1
    · simp at h1
    · exact absurd h2 (lt_irrefl _)

theorem side_cuts : GoodCuts (squareOf 0 6) (1 / 1000) [(3, 2 / 3), (3, 1 / 3)] := by
  obtain ⟨v0, v1, v2, v3, v4⟩ := squareOf_vtx 0 6
  refine ⟨by norm_num, ?_, ?_, ?_, ?_⟩
  · intro c hc
    simp only [List.mem_cons, List.not_mem_nil, or_false] at hc
    rcases hc with rfl | rfl <;> simp [squareOf]
  · intro c hc
    simp only [List.mem_cons, List.not_mem_nil, or_false] at hc
    rcases hc with rfl | rfl
    · unfold CutOk
      simp only [Nat.reduceAdd, v3, v4]
      refine ⟨by norm_num, by norm_num, fz_far _ _ ?_, fz_far _ _ ?_, Or.inl (isLine_zero _ _), Or.inl (isLine_zero _ _)⟩ <;>
        norm_num [segCurve_line (isLine_zero _ _), linePoint, Vertex.pos]
    · unfold CutOk
      simp only [Nat.reduceAdd, v3, v4]
      refine ⟨by norm_num, by norm_num, fz_far _ _ ?_, fz_far _ _ ?_, Or.inl (isLine_zero _ _), Or.inl (isLine_zero _ _)⟩ <;>
        norm_num [segCurve_line (isLine_zero _ _), linePoint, Vertex.pos]
  · intro c hc c' hc' hne
    simp only [List.mem_cons, List.not_mem_nil, or_false] at hc hc'
    rcases hc with rfl | rfl <;> rcases hc' with rfl | rfl <;>
      first
        | exact absurd rfl hne
        | (simp only [(squareOf_curve 0 6 _).2.2.2, FarApart]; right; norm_num)
  · intro c hc c' hc' h1 h2
    simp only [List.mem_cons, List.not_mem_nil, or_false] at hc
    rcases hc with rfl | rfl
    · simp only [v3]; exact Or.inl (isLine_zero _ _)
    · simp only [v3]; exact Or.inl (isLine_zero _ _)

theorem cos_zero_half {t : ℝ} (h0 : 0 ≤ t) (h1 : t ≤ 1) (h : Real.cos (t * Real.pi) = 0) : t = 1 / 2 := by
  have hp := Real.pi_pos
  have := Real.injOn_cos (x₁ := t * Real.pi) (x₂ := 1 / 2 * Real.pi) ⟨by positivity, by nlinarith⟩ ⟨by positivity, by nlinarith⟩
    (by rw [h, half_trig.1])
  exact mul_right_cancel₀ hp.ne' this

theorem disc_cross : CleanCrossing disc (squareOf 0 6) (1 / 1000) [((0, 1 / 2), (3, 2 / 3)), ((1, 1 / 2), (3, 1 / 3))] := by
  obtain ⟨hcos, hsin⟩ := half_trig
  refine ⟨?_, ?_, disc_cuts, side_cuts⟩
  · intro c hc
    simp only [List.mem_cons, List.not_mem_nil, or_false] at hc
    rcases hc with rfl | rfl
    · simp only [(disc_curve _).1, (squareOf_curve 0 6 _).2.2.2, V2.ext_iff', hcos, hsin]; norm_num
    · simp only [(disc_curve _).2, (squareOf_curve 0 6 _).2.2.2, V2.ext_iff', hcos, hsin]; norm_num
  · intro i t j u hi h0 h1 hj h2 h3 e
    have hi' : i < 2 := hi
    have hj' : j < 4 := hj
    have c1 := Real.cos_le_one (t * Real.pi)
    have c2 := Real.neg_one_le_cos (t * Real.pi)
    have s1 := Real.sin_le_one (t * Real.pi)
    have s2 := Real.neg_one_le_sin (t * Real.pi)
    interval_cases i <;> interval_cases j <;>
      simp only [(disc_curve _).1, (disc_curve _).2,
        (squareOf_curve 0 6 _).1, (squareOf_curve 0 6 _).2.1, (squareOf_curve 0 6 _).2.2.1, (squareOf_curve 0 6 _).2.2.2, V2.ext_iff'] at e <;>
      obtain ⟨e1, e2⟩ := e <;>
      first
        | (exfalso; linarith)
        | (have ht : t = 1 / 2 := cos_zero_half h0 h1 (by linarith)
           subst ht
           rw [hsin] at e2
           have hu : u = 2 / 3 := by linarith
           subst hu
           simp; done)
        | (have ht : t = 1 / 2 := cos_zero_half h0 h1 (by linarith)
           subst ht
           rw [hsin] at e2
           have hu : u = 1 / 3 := by linarith
           subst hu
           simp; done)

theorem half_clear {a : Vertex ℝ × Vertex ℝ} (ha : a ∈ disc.segs) :
    ProperArc a.1 a.2 ∧ segCenter a = ⟨0, 3⟩ ∧ segRadius a = 1 ∧ (∀ e, e = a.1.pos ∨ e = a.2.pos → (e.x = 1 ∨ e.x = -1) ∧ e.y = 3) := by
  obtain ⟨c1, c2, r1, r2⟩ := disc_center
  rw [disc_segs] at ha
  simp only [List.mem_cons, List.not_mem_nil, or_false] at ha
  rcases ha with rfl | rfl
  · refine ⟨disc_proper.1, c1, r1, ?_⟩
    rintro e (rfl | rfl) <;> simp [Vertex.pos]
  · refine ⟨disc_proper.2, c2, r2, ?_⟩
    rintro e (rfl | rfl) <;> simp [Vertex.pos]

theorem half_sweep {a : Vertex ℝ × Vertex ℝ} (ha : a ∈ disc.segs) (pt : V2 ℝ) (h : 1 ≤ |pt.y - 3|) : SweepClear a.1 a.2 pt (1 / 1000) := by
  obtain ⟨-, hc, -, he⟩ := half_clear ha
  intro e hee
  obtain ⟨ex, ey⟩ := he e hee
  have : |cross (arcCenter a.1.pos a.2.pos a.1.bulge) e pt| = |pt.y - 3| := by
    rw [show arcCenter a.1.pos a.2.pos a.1.bulge = ⟨0, 3⟩ from hc]
    unfold cross
    rcases ex with ex | ex <;> rw [ex, ey] <;> simp [abs_sub_comm]
  rw [this]
  rintro ⟨-, h2⟩
  linarith

theorem corner_clear {a : Vertex ℝ × Vertex ℝ} (ha : a ∈ disc.segs) (pt : V2 ℝ) (h : |pt.y - 3| = 3) : ClearOfArc a pt (1 / 1000) := by
  refine ⟨half_sweep ha pt (by linarith), fun q hq => ?_⟩
  obtain ⟨hp, hc, hr, -⟩ := half_clear ha
  have h1 := onSeg_circle hp hq
  unfold OnCircle at h1
  rw [hc, hr] at h1
  have h2 := edist_sq q ⟨0, 3⟩
  rw [h1] at h2
  unfold edist
  apply Real.lt_sqrt_of_sq_lt
  have h3 : |q.y - 3| ≤ 1 := by
    rw [abs_le]; simp only at h2; constructor <;> nlinarith [sq_nonneg (q.x - 0)]
  rw [abs_le] at h3
  rcases abs_eq (by norm_num : (0:ℝ) ≤ 3) |>.mp h with h4 | h4 <;> nlinarith [sq_nonneg (pt.x - q.x)]

theorem disc_clear : ∀ a ∈ disc.segs, ∀ b ∈ (squareOf 0 6).segs, ClearPair a b (1 / 1000) := by
  intro a ha b hb
  have hl := squareOf_lines 0 6 b hb
  obtain ⟨hp, hc, hr, he⟩ := half_clear ha
  refine .arcLine hp hl ?_
  rw [squareOf_segs] at hb
  simp only [List.mem_cons, List.not_mem_nil, or_false] at hb
  have far : ∀ q : V2 ℝ, (3 ≤ |q.x| ∨ 3 ≤ |q.y - 3|) → 1 + 2 * (1 / 1000 : ℝ) < edist q ⟨0, 3⟩ := by
    intro q hq
    unfold edist
    apply Real.lt_sqrt_of_sq_lt
    simp only
    rcases hq with hq | hq <;> nlinarith [sq_abs q.x, sq_abs (q.y - 3), sq_nonneg q.x, sq_nonneg (q.y - 3)]
  have miss : ∀ p q : V2 ℝ, (∀ t, 3 ≤ |(linePoint p q t).x| ∨ 3 ≤ |(linePoint p q t).y - 3|) →
      (∀ t, segRadius a + 2 * (1 / 1000) < edist (linePoint p q t) (segCenter a)) ∧
      ∀ t, OnCircle (segCenter a) (segRadius a) (linePoint p q t) →
        (InReach p q t (1 / 1000) → 0 ≤ t ∧ t ≤ 1) ∧ ClearOfEnds a (linePoint p q t) (1 / 1000) := by
    intro p q h
    rw [hc, hr]
    refine ⟨fun t => far _ (h t), fun t ht => ?_⟩
    have := far _ (h t)
    unfold OnCircle at ht
    rw [ht] at this
    norm_num at this
  rcases hb with rfl | rfl | rfl | rfl
  · obtain ⟨m1, m2⟩ := miss ⟨0, 0⟩ ⟨6, 0⟩ (fun t => Or.inr (by norm_num [linePoint]))
    exact ⟨⟨by norm_num [Apart, Vertex.pos], by norm_num [Vertex.pos]⟩,
      ⟨corner_clear ha _ (by norm_num [Vertex.pos]), corner_clear ha _ (by norm_num [Vertex.pos])⟩, Or.inl m1, fun t ht hr => ⟨(m2 t ht).1 hr, (m2 t ht).2⟩⟩
  · obtain ⟨m1, m2⟩ := miss ⟨6, 0⟩ ⟨6, 6⟩ (fun t => Or.inl (by norm_num [linePoint]))
    exact ⟨⟨by norm_num [Apart, Vertex.pos], by norm_num [Vertex.pos]⟩,
      ⟨corner_clear ha _ (by norm_num [Vertex.pos]), corner_clear ha _ (by norm_num [Vertex.pos])⟩, Or.inl m1, fun t ht hr => ⟨(m2 t ht).1 hr, (m2 t ht).2⟩⟩
  · obtain ⟨m1, m2⟩ := miss ⟨6, 6⟩ ⟨0, 6⟩ (fun t => Or.inr (by norm_num [linePoint]))
    exact ⟨⟨by norm_num [Apart, Vertex.pos], by norm_num [Vertex.pos]⟩,
      ⟨corner_clear ha _ (by norm_num [Vertex.pos]), corner_clear ha _ (by norm_num [Vertex.pos])⟩, Or.inl m1, fun t ht hr => ⟨(m2 t ht).1 hr, (m2 t ht).2⟩⟩
  · refine ⟨⟨by norm_num [Apart, Vertex.pos], by norm_num [Vertex.pos]⟩,
      ⟨corner_clear ha _ (by norm_num [Vertex.pos]), corner_clear ha _ (by norm_num [Vertex.pos])⟩, Or.inr ⟨1 / 2, ?_⟩, ?_⟩
    · rw [hc, hr]
      have : linePoint (Vertex.pos (⟨0, 6, 0⟩ : Vertex ℝ)) (Vertex.pos ⟨0, 0, 0⟩) (1 / 2) = ⟨0, 3⟩ := by
        simp only [linePoint, Vertex.pos, V2.ext_iff']; norm_num
      rw [this, edist_self]; norm_num
    · intro t ht
      rw [hc, hr] at ht
      have h2 := edist_sq (linePoint (Vertex.pos (⟨0, 6, 0⟩ : Vertex ℝ)) (Vertex.pos ⟨0, 0, 0⟩) t) ⟨0, 3⟩
      unfold OnCircle at ht
      rw [ht] at h2
      simp only [linePoint, Vertex.pos] at h2
      have h3 : (t - 1 / 3) * (t - 2 / 3) = 0 := by nlinarith
      have hy : (linePoint (Vertex.pos (⟨0, 6, 0⟩ : Vertex ℝ)) (Vertex.pos ⟨0, 0, 0⟩) t).x = 0 := by simp [linePoint, Vertex.pos]
      refine fun _ => ⟨?_, half_sweep ha _ ?_, ?_, ?_⟩
      · rcases mul_eq_zero.mp h3 with h | h <;> constructor <;> linarith
      · simp only [linePoint, Vertex.pos]
        rcases mul_eq_zero.mp h3 with h | h
        · rw [show t = 1 / 3 by linarith]; norm_num
        · rw [show t = 2 / 3 by linarith]; norm_num
      · intro h
        obtain ⟨hx, -⟩ := he _ (Or.inl rfl)
        rw [← h, hy] at hx
        norm_num at hx
      · intro h
        obtain ⟨hx, -⟩ := he _ (Or.inr rfl)
        rw [← h, hy] at hx
        norm_num at hx

/-- The hypotheses of `C59_clear` are met by a disc of two arcs and a square that cuts it in half. -/
example (op : BooleanOp) : ∃ r, polylineBoolean Env.plain disc (squareOf 0 6) op none (1 / 1000) = .ok r ∧ r.info = .intersected ∧
      (∀ x ∈ r.posPlines ++ r.negPlines, x.pline.closed = true ∧ 2 ≤ x.pline.verts.length ∧
        ∀ z, OnPline x.pline z → OnPline disc z ∨ OnPline (squareOf 0 6) z) ∧
      ∀ z, ¬ OnPline disc z → ¬ OnPline (squareOf 0 6) z →
        let total := ((r.posPlines ++ r.negPlines).map fun x => x.pline.windingNumber z).sum
        (total = 0 ∨ total = 1 ∨ total = -1) ∧ (total ≠ 0 ↔ op.holds (disc.windingNumber z ≠ 0) ((squareOf 0 6).windingNumber z ≠ 0)) :=
  C59_clear Env.plain Env.plain_lawful _ _ _ (by norm_num) disc_full (squareOf_full 0 6 _ (by norm_num) (by norm_num))
    disc_winds (squareOf_winds 0 6 (by norm_num)) _ disc_cross (by simp) (fun a ha b hb _ => disc_clear a ha b hb) op

end Cavc
