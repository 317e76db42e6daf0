import Verif.Props.Circles

/-! # C27: intersects of two polyline segments -/

set_option linter.unusedSectionVars false

namespace Cavc
open RealScalar

/-- The points a segment intersection result reports. -/
def PlineSegIntr.points : PlineSegIntr ℝ → List (V2 ℝ)
  | .noIntersect => []
  | .tangentIntersect p => [p]
  | .oneIntersect p => [p]
  | .twoIntersects p q => [p, q]
  | .overlappingLines p q => [p, q]
  | .overlappingArcs p q => [p, q]

/-- `pt` is within `d` of some point of the segment. -/
def NearSeg (v1 v2 : Vertex ℝ) (pt : V2 ℝ) (d : ℝ) : Prop := ∃ q, OnSeg v1 v2 q ∧ edist pt q ≤ d

/-- `pt` is not in the tolerance band of the sweep test of the arc: the triangle of the arc's
center, an end point and `pt` has area zero or at least half of `eps`. -/
def SweepClear (v1 v2 : Vertex ℝ) (pt : V2 ℝ) (eps : ℝ) : Prop :=
  ∀ e, e = v1.pos ∨ e = v2.pos →
    ¬ (0 < |cross (arcCenter v1.pos v2.pos v1.bulge) e pt| ∧
       |cross (arcCenter v1.pos v2.pos v1.bulge) e pt| < eps)

theorem NearSeg.mono {v1 v2 : Vertex ℝ} {pt : V2 ℝ} {d d' : ℝ} (h : NearSeg v1 v2 pt d) (hd : d ≤ d') :
    NearSeg v1 v2 pt d' := by
  obtain ⟨q, h1, h2⟩ := h
  exact ⟨q, h1, le_trans h2 hd⟩

theorem NearSeg.of_on {v1 v2 : Vertex ℝ} {pt : V2 ℝ} {d : ℝ} (h : OnSeg v1 v2 pt) (hd : 0 ≤ d) :
    NearSeg v1 v2 pt d := ⟨pt, h, by rw [edist_self]; exact hd⟩

theorem onSeg_first (v1 v2 : Vertex ℝ) : OnSeg v1 v2 v1.pos :=
  ⟨0, le_refl _, zero_le_one, (segCurve_ends v1 v2).1.symm⟩
theorem onSeg_second (v1 v2 : Vertex ℝ) : OnSeg v1 v2 v2.pos :=
  ⟨1, zero_le_one, le_refl _, (segCurve_ends v1 v2).2.symm⟩

theorem near_of_reach {v1 v2 : Vertex ℝ} (hl : IsLine v1) {t eps : ℝ} (heps : 0 < eps) (h : InReach v1.pos v2.pos t eps) :
    NearSeg v1 v2 (linePoint v1.pos v2.pos t) eps := by
  have hL := edist_nonneg v1.pos v2.pos
  obtain ⟨h1, h2⟩ := h
  refine ⟨linePoint v1.pos v2.pos (max 0 (min t 1)), ⟨max 0 (min t 1), le_max_left _ _, ?_, (segCurve_line hl _).symm⟩, ?_⟩
  · exact max_le zero_le_one (min_le_right _ _)
  · rw [edist_linePoint]
    rcases lt_or_ge t 0 with h0 | h0
    · rw [min_eq_left (by linarith), max_eq_left h0.le, sub_zero, abs_of_neg h0]; linarith
    · rcases le_or_gt t 1 with h3 | h3
      · rw [min_eq_left h3, max_eq_right h0, sub_self, abs_zero, zero_mul]; exact heps.le
      · rw [min_eq_right h3.le, max_eq_right zero_le_one, abs_of_pos (by linarith)]; linarith

theorem pointFromParametric_eq (p q : V2 ℝ) (t : ℝ) : pointFromParametric p q t = linePoint p q t := by
  rw [V2.ext_iff']; simp [pointFromParametric, linePoint]

/-- The two lines cross at an angle the area test resolves, or are exactly parallel (and then on one
line or apart by more than the test's tolerance), with ends that are apart. -/
def LinesResolved (v1 v2 u1 u2 : V2 ℝ) (eps : ℝ) : Prop :=
  eps ≤ |dirCross v1 v2 u1 u2| ∨
  (dirCross v1 v2 u1 u2 = 0 ∧ Apart v1 v2 eps ∧ Apart u1 u2 eps ∧
    (dirCross u1 u2 u1 v1 = 0 ∨ eps ≤ |dirCross u1 u2 u1 v1|))

/-- **C27** (two line segments) Every reported point is within `4 * eps` of both segments. -/
theorem C27_lines (v1 v2 u1 u2 : Vertex ℝ) (eps : ℝ) (heps : 0 < eps) (hv : IsLine v1) (hu : IsLine u1)
    (hres : LinesResolved v1.pos v2.pos u1.pos u2.pos eps) (pt : V2 ℝ)
    (hpt : pt ∈ (plineSegIntr v1 v2 u1 u2 eps).points) :
    NearSeg v1 v2 pt (4 * eps) ∧ NearSeg u1 u2 pt (4 * eps) := by
  unfold plineSegIntr at hpt
  simp only [bulgeIsZero_true hv, bulgeIsZero_true hu, Bool.and_self, if_true] at hpt
  rcases hres with hc | ⟨hpar, hav, hau, hcol⟩
  · obtain ⟨t, s, hu', htrue, hfalse⟩ := C24_crossing v1.pos v2.pos u1.pos u2.pos eps heps hc
    by_cases hr : InReach v1.pos v2.pos t eps ∧ InReach u1.pos u2.pos s eps
    · rw [htrue hr] at hpt
      simp only [PlineSegIntr.points, pointFromParametric_eq, List.mem_singleton] at hpt
      subst hpt
      refine ⟨(near_of_reach hv heps hr.1).mono (by linarith), ?_⟩
      rw [(hu' t s).mpr ⟨rfl, rfl⟩]
      exact (near_of_reach hu heps hr.2).mono (by linarith)
    · rw [hfalse hr] at hpt; simp [PlineSegIntr.points] at hpt
  · rcases hcol with hcol | hcol
    · have h := C24_collinear v1.pos v2.pos u1.pos u2.pos eps heps hpar hcol hav hau
      cases hres : lineLineIntr v1.pos v2.pos u1.pos u2.pos eps with
      | noIntersect => rw [hres] at hpt; simp [PlineSegIntr.points] at hpt
      | falseIntersect a b => rw [hres] at hpt; simp [PlineSegIntr.points] at hpt
      | trueIntersect t s =>
        rw [hres] at h hpt
        dsimp only at h
        simp only [PlineSegIntr.points, pointFromParametric_eq, List.mem_singleton] at hpt
        subst hpt
        obtain ⟨h01, hreach, hd, _⟩ := h
        constructor
        · apply NearSeg.of_on _ (by linarith)
          rcases h01 with rfl | rfl
          · exact ⟨0, le_refl _, zero_le_one, by rw [segCurve_line hv]⟩
          · exact ⟨1, zero_le_one, le_refl _, by rw [segCurve_line hv]⟩
        · obtain ⟨q, hq, hqd⟩ := near_of_reach hu heps hreach
          refine ⟨q, hq, ?_⟩
          have := edist_triangle (linePoint v1.pos v2.pos t) (linePoint u1.pos u2.pos s) q
          linarith
      | overlapping a b =>
        rw [hres] at h hpt
        dsimp only at h
        simp only [PlineSegIntr.points, pointFromParametric_eq, List.mem_cons, List.not_mem_nil, or_false] at hpt
        obtain ⟨h0, hab, h1, hiff⟩ := h
        have key : ∀ s, a ≤ s → s ≤ b → NearSeg v1 v2 (linePoint u1.pos u2.pos s) (4 * eps) ∧ NearSeg u1 u2 (linePoint u1.pos u2.pos s) (4 * eps) := by
          intro s hs1 hs2
          obtain ⟨⟨t, ht0, ht1, he⟩, _⟩ := (hiff _).mpr ⟨s, hs1, hs2, rfl⟩
          constructor
          · exact NearSeg.of_on ⟨t, ht0, ht1, by rw [segCurve_line hv]; exact he⟩ (by linarith)
          · exact NearSeg.of_on ⟨s, by linarith, by linarith, by rw [segCurve_line hu]⟩ (by linarith)
        rcases hpt with rfl | rfl
        · exact key a (le_refl _) hab.le
        · exact key b hab.le (le_refl _)
    · rw [(C24_apart v1.pos v2.pos u1.pos u2.pos eps (by rw [hpar, abs_zero]; exact heps) (Or.inr hcol)).1] at hpt
      simp [PlineSegIntr.points] at hpt

/-! ## Line against arc -/

/-- the sweep test and the distance to the circle together -/
theorem near_of_sweep {a1 a2 : Vertex ℝ} (h : ProperArc a1 a2) {pt : V2 ℝ} {eps d : ℝ} (heps : 0 < eps)
    (hsw : pointWithinArcSweep (arcCenter a1.pos a2.pos a1.bulge) a1.pos a2.pos a1.bulgeIsNeg pt eps = true)
    (hclear : SweepClear a1 a2 pt eps)
    (hcirc : |edist pt (arcCenter a1.pos a2.pos a1.bulge) - arcRadius a1.pos a2.pos a1.bulge| ≤ d) :
    NearSeg a1 a2 pt d := by
  set c := arcCenter a1.pos a2.pos a1.bulge with hc
  by_cases hpt : pt = c
  · refine ⟨a1.pos, onSeg_first a1 a2, ?_⟩
    have hb := bulge_ne_zero h.notLine
    have e : edist a1.pos c = arcRadius a1.pos a2.pos a1.bulge := by
      have := arcPoint_edist a1.pos a2.pos a1.bulge 0 hb
      rwa [arcPoint_zero] at this
    rw [hpt, edist_self, zero_sub, abs_neg, abs_of_nonneg (arcRadius_nonneg _ _ _)] at hcirc
    rw [hpt, edist_comm, e]; exact hcirc
  · have hband : ∀ e, e = a1.pos ∨ e = a2.pos → (|cross c e pt| < eps → cross c e pt = 0) := by
      intro e he hlt
      by_contra hne
      exact hclear e he ⟨abs_pos.mpr hne, hlt⟩
    have hon := (arc_sweep h heps hpt).2 hsw (hband _ (Or.inl rfl)) (hband _ (Or.inr rfl))
    exact ⟨_, hon, by rw [(circleProj_center hpt (arcRadius_nonneg _ _ _)).2]; exact hcirc⟩

theorem liesOnArc_iff {a1 a2 : Vertex ℝ} {pt : V2 ℝ} {eps r : ℝ} {c : V2 ℝ} :
    pointLiesOnArc r c a1 a2 eps pt = true ↔
      pointWithinArcSweep c a1.pos a2.pos a1.bulgeIsNeg pt eps = true ∧ |edist pt c - r| < eps := by
  unfold pointLiesOnArc
  rw [Bool.and_eq_true, fuzzyEqEps_eq, decide_eq_true_eq, distSquared_eq]
  rfl

/-- A line segment that is not degenerate for the line-circle computation: ends apart, and vertical
or with ends that differ by at least the default epsilon in x. -/
def LineOk (p q : V2 ℝ) (eps : ℝ) : Prop := Apart p q eps ∧ (p.x = q.x ∨ 1 / 100000000 ≤ |q.x - p.x|)

theorem lineArc_points {w1 w2 a1 a2 : Vertex ℝ} (uIsLine : Bool) {eps : ℝ} (heps : 0 < eps) (hw : IsLine w1)
    (hok : LineOk w1.pos w2.pos eps) (ha : ProperArc a1 a2) (pt : V2 ℝ)
    (hpt : pt ∈ (processLineArcIntr uIsLine w1.pos w2.pos a1 a2 eps).points)
    (hclear : SweepClear a1 a2 pt eps) :
    NearSeg w1 w2 pt eps ∧ NearSeg a1 a2 pt (2 * eps) := by
  have hb := bulge_ne_zero ha.notLine
  unfold processLineArcIntr at hpt
  rw [segArcRadiusAndCenter_eq a1 a2 hb ha.ne] at hpt
  simp only [length_edist] at hpt
  have hC := C25_line_circle w1.pos w2.pos (arcRadius a1.pos a2.pos a1.bulge) (arcCenter a1.pos a2.pos a1.bulge) eps
    (arcRadius_nonneg _ _ _) heps hok.1 hok.2
  -- an end of the line that lies on the arc
  have hend : ∀ e, (e = w1.pos ∨ e = w2.pos) →
      pointLiesOnArc (arcRadius a1.pos a2.pos a1.bulge) (arcCenter a1.pos a2.pos a1.bulge) a1 a2 eps e = true →
      pt = e → NearSeg w1 w2 pt eps ∧ NearSeg a1 a2 pt (2 * eps) := by
    rintro e he hon rfl
    rw [liesOnArc_iff] at hon
    refine ⟨NearSeg.of_on ?_ heps.le, near_of_sweep ha heps hon.1 hclear (by linarith [hon.2])⟩
    rcases he with rfl | rfl
    · exact onSeg_first _ _
    · exact onSeg_second _ _
  -- a solution of the line equation
  obtain ⟨f, hf⟩ : ∃ f : ℝ → Option (V2 ℝ), f = fun (t : ℝ) =>
    if (!Scalar.fuzzyInRangeEps (t * edist w1.pos w2.pos) 0 (edist w1.pos w2.pos) eps) = true then (none : Option (V2 ℝ))
    else
      if pointWithinArcSweep (arcCenter a1.pos a2.pos a1.bulge) a1.pos a2.pos a1.bulgeIsNeg (pointFromParametric w1.pos w2.pos t) eps = true then some (pointFromParametric w1.pos w2.pos t) else none := ⟨_, rfl⟩
  have hsol : ∀ t p, f t = some p →
      |edist (linePoint w1.pos w2.pos t) (arcCenter a1.pos a2.pos a1.bulge) - arcRadius a1.pos a2.pos a1.bulge| ≤ 2 * eps →
      pt = p → NearSeg w1 w2 pt eps ∧ NearSeg a1 a2 pt (2 * eps) := by
    rintro t p hft hd rfl
    rw [hf] at hft
    dsimp only at hft
    split_ifs at hft with h1 h2
    rw [pointFromParametric_eq] at hft h2
    obtain rfl := Option.some.inj hft
    rw [Bool.not_eq_true', Bool.not_eq_false, ← length_edist, inRange_iff] at h1
    exact ⟨near_of_reach hw heps h1, near_of_sweep ha heps h2 hclear hd⟩
  have hfx : ∀ t, (if (!Scalar.fuzzyInRangeEps (t * edist w1.pos w2.pos) 0 (edist w1.pos w2.pos) eps) = true then (none : Option (V2 ℝ))
    else
      if pointWithinArcSweep (arcCenter a1.pos a2.pos a1.bulge) a1.pos a2.pos a1.bulgeIsNeg (pointFromParametric w1.pos w2.pos t) eps = true then some (pointFromParametric w1.pos w2.pos t) else none) = f t := by
    intro t; rw [hf]
  simp only [hfx] at hpt
  clear hf hfx
  cases hres : lineCircleIntr w1.pos w2.pos (arcRadius a1.pos a2.pos a1.bulge) (arcCenter a1.pos a2.pos a1.bulge) eps with
  | noIntersect => rw [hres] at hpt; simp [PlineSegIntr.points] at hpt
  | tangentIntersect t =>
    rw [hres] at hpt hC
    dsimp only at hC hpt
    split_ifs at hpt with h1 h2
    · simp only [PlineSegIntr.points, List.mem_singleton] at hpt
      exact hend _ (Or.inl rfl) h1 hpt
    · simp only [PlineSegIntr.points, List.mem_singleton] at hpt
      exact hend _ (Or.inr rfl) h2 hpt
    · cases hft : f t with
      | none => rw [hft] at hpt; simp [PlineSegIntr.points] at hpt
      | some p =>
        rw [hft] at hpt
        simp only [PlineSegIntr.points, List.mem_singleton] at hpt
        exact hsol t p hft (by linarith [hC.1]) hpt
  | twoIntersects t0 t1 =>
    rw [hres] at hpt hC
    dsimp only at hC hpt
    have d0 := hC.2 t0 (Or.inl rfl)
    have d1 := hC.2 t1 (Or.inr rfl)
    cases hf0 : f t0 with
    | none =>
      cases hf1 : f t1 with
      | none => rw [hf0, hf1] at hpt; simp [PlineSegIntr.points] at hpt
      | some p =>
        rw [hf0, hf1] at hpt
        dsimp only at hpt
        split_ifs at hpt with h1 h2 <;> simp only [PlineSegIntr.points, List.mem_singleton] at hpt
        · exact hend _ (Or.inl rfl) h1 hpt
        · exact hend _ (Or.inr rfl) h2 hpt
        · exact hsol t1 p hf1 d1 hpt
    | some p =>
      cases hf1 : f t1 with
      | none =>
        rw [hf0, hf1] at hpt
        dsimp only at hpt
        split_ifs at hpt with h1 h2 <;> simp only [PlineSegIntr.points, List.mem_singleton] at hpt
        · exact hend _ (Or.inl rfl) h1 hpt
        · exact hend _ (Or.inr rfl) h2 hpt
        · exact hsol t0 p hf0 d0 hpt
      | some q =>
        rw [hf0, hf1] at hpt
        dsimp only at hpt
        have hall : ∀ x, (x = w1.pos ∧ pointLiesOnArc (arcRadius a1.pos a2.pos a1.bulge) (arcCenter a1.pos a2.pos a1.bulge) a1 a2 eps w1.pos = true) ∨
            (x = w2.pos ∧ pointLiesOnArc (arcRadius a1.pos a2.pos a1.bulge) (arcCenter a1.pos a2.pos a1.bulge) a1 a2 eps w2.pos = true) ∨ x = p ∨ x = q → pt = x →
            NearSeg w1 w2 pt eps ∧ NearSeg a1 a2 pt (2 * eps) := by
          rintro x (⟨rfl, h⟩ | ⟨rfl, h⟩ | rfl | rfl) hx
          · exact hend _ (Or.inl rfl) h hx
          · exact hend _ (Or.inr rfl) h hx
          · exact hsol t0 _ hf0 d0 hx
          · exact hsol t1 _ hf1 d1 hx
        cases ho0 : pointLiesOnArc (arcRadius a1.pos a2.pos a1.bulge) (arcCenter a1.pos a2.pos a1.bulge) a1 a2 eps w1.pos <;>
          cases ho1 : pointLiesOnArc (arcRadius a1.pos a2.pos a1.bulge) (arcCenter a1.pos a2.pos a1.bulge) a1 a2 eps w2.pos <;>
          rw [ho0, ho1] at hpt hall <;> dsimp only at hpt <;> split_ifs at hpt <;>
          simp only [PlineSegIntr.points, List.mem_cons, List.not_mem_nil, or_false] at hpt <;>
          rcases hpt with h | h <;> apply hall _ _ h <;> simp

end Cavc
