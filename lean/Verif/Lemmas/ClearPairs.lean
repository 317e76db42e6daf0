import Verif.Spec.ClearLines
import Verif.Lemmas.FindCrossing
import Verif.Props.SegIntrMore

/-! # What is reported for clear pairs of segments -/

set_option linter.unusedVariables false

namespace Cavc
open RealScalar

theorem onSeg_circle {a : Vertex ℝ × Vertex ℝ} (h : ProperArc a.1 a.2) {q : V2 ℝ} (hq : OnSeg a.1 a.2 q) : OnCircle (segCenter a) (segRadius a) q := by
  obtain ⟨t, -, -, rfl⟩ := hq
  rw [segCurve_arc h.notLine]
  exact arcPoint_edist _ _ _ t (bulge_ne_zero h.notLine)

theorem edist_zero {p q : V2 ℝ} (h : edist p q ≤ 0) : p = q := by
  have h0 : edist p q = 0 := le_antisymm h (edist_nonneg _ _)
  have h2 := edist_sq p q
  rw [h0] at h2
  rw [V2.ext_iff']
  constructor <;> nlinarith [sq_nonneg (p.x - q.x), sq_nonneg (p.y - q.y)]

/-- a point of the circle is in the sweep of the arc iff it is on the arc -/
theorem sweep_on {a : Vertex ℝ × Vertex ℝ} (h : ProperArc a.1 a.2) {eps : ℝ} (he : 0 < eps) {pt : V2 ℝ} (hc : OnCircle (segCenter a) (segRadius a) pt)
    (hcl : ClearOfEnds a pt eps) :
    pointWithinArcSweep (segCenter a) a.1.pos a.2.pos a.1.bulgeIsNeg pt eps = true ↔ OnSeg a.1 a.2 pt := by
  constructor
  · intro hs
    obtain ⟨q, hq, hd⟩ := near_of_sweep (d := 0) h he hs hcl.1 (by
      have : edist pt (arcCenter a.1.pos a.2.pos a.1.bulge) = arcRadius a.1.pos a.2.pos a.1.bulge := hc
      rw [this]; simp)
    rw [edist_zero hd]
    exact hq
  · intro hon
    by_contra hs
    rw [Bool.not_eq_true] at hs
    have hne : pt ≠ segCenter a := by
      intro h0
      have hr : 0 < segRadius a := arcRadius_pos h.ne (bulge_ne_zero h.notLine)
      rw [h0] at hc
      unfold OnCircle at hc
      rw [edist_self] at hc
      linarith
    rcases (arc_sweep h he hne).1 hs pt hon with h1 | h1
    · rw [edist_self] at h1
      exact hcl.2.1 (edist_zero h1)
    · rw [edist_self] at h1
      exact hcl.2.2 (edist_zero h1)

theorem clear_not_on {a : Vertex ℝ × Vertex ℝ} (h : ProperArc a.1 a.2) {eps : ℝ} (he : 0 < eps) {pt : V2 ℝ} (hcl : ClearOfArc a pt eps) :
    pointLiesOnArc (segRadius a) (segCenter a) a.1 a.2 eps pt = false := by
  rw [← Bool.not_eq_true, liesOnArc_iff]
  rintro ⟨h1, h2⟩
  obtain ⟨q, hq, hd⟩ := near_of_sweep h he h1 hcl.1 h2.le
  exact absurd hd (not_le.mpr (hcl.2 q hq))

theorem lineArc_pair {w a : Vertex ℝ × Vertex ℝ} {eps : ℝ} (he : 0 < eps) (hw : IsLine w.1) (ha : ProperArc a.1 a.2) (h : ClearLineArc w a eps) (uIsLine : Bool) :
    (processLineArcIntr uIsLine w.1.pos w.2.pos a.1 a.2 eps).overlap = none ∧
    (processLineArcIntr uIsLine w.1.pos w.2.pos a.1 a.2 eps).isolated.Nodup ∧
    (∀ q, q ∈ (processLineArcIntr uIsLine w.1.pos w.2.pos a.1 a.2 eps).isolated ↔ OnSeg w.1 w.2 q ∧ OnSeg a.1 a.2 q) ∧
    ∀ p q, uIsLine = true → processLineArcIntr uIsLine w.1.pos w.2.pos a.1 a.2 eps = .twoIntersects p q →
      ∃ x y, x < y ∧ p = linePoint w.1.pos w.2.pos x ∧ q = linePoint w.1.pos w.2.pos y := by
  have hb := bulge_ne_zero ha.notLine
  unfold processLineArcIntr
  rw [segArcRadiusAndCenter_eq a.1 a.2 hb ha.ne]
  simp only [length_edist, show arcRadius a.1.pos a.2.pos a.1.bulge = segRadius a from rfl, show arcCenter a.1.pos a.2.pos a.1.bulge = segCenter a from rfl]
  have hC := C25_line_circle w.1.pos w.2.pos (segRadius a) (segCenter a) eps (arcRadius_nonneg _ _ _) he h.line.1 h.line.2
  have e1 := clear_not_on ha he h.ends.1
  have e2 := clear_not_on ha he h.ends.2
  simp only [e1, e2, Bool.false_eq_true, if_false]
  have hL : 0 < edist w.1.pos w.2.pos := by
    have := edist_nonneg w.1.pos w.2.pos
    rcases this.lt_or_eq with h0 | h0
    · exact h0
    · have := edist_zero h0.symm.le
      exact absurd this (apart_ne he h.line.1)
  have inj : ∀ t u, linePoint w.1.pos w.2.pos t = linePoint w.1.pos w.2.pos u → t = u := by
    intro t u e
    have := edist_linePoint w.1.pos w.2.pos t u
    rw [e, edist_self] at this
    have h0 : |t - u| = 0 := by
      rcases mul_eq_zero.mp this.symm with h0 | h0
      · exact h0
      · exact absurd h0 hL.ne'
    exact sub_eq_zero.mp (abs_eq_zero.mp h0)
  obtain ⟨f, hf⟩ : ∃ f : ℝ → Option (V2 ℝ), f = fun (t : ℝ) =>
    if (!Scalar.fuzzyInRangeEps (t * edist w.1.pos w.2.pos) 0 (edist w.1.pos w.2.pos) eps) = true then (none : Option (V2 ℝ))
    else
      if pointWithinArcSweep (segCenter a) a.1.pos a.2.pos a.1.bulgeIsNeg (pointFromParametric w.1.pos w.2.pos t) eps = true then some (pointFromParametric w.1.pos w.2.pos t) else none := ⟨_, rfl⟩
  have hsol : ∀ t, OnCircle (segCenter a) (segRadius a) (linePoint w.1.pos w.2.pos t) →
      (f t = none ∧ ¬ (0 ≤ t ∧ t ≤ 1 ∧ OnSeg a.1 a.2 (linePoint w.1.pos w.2.pos t))) ∨
      (f t = some (linePoint w.1.pos w.2.pos t) ∧ 0 ≤ t ∧ t ≤ 1 ∧ OnSeg a.1 a.2 (linePoint w.1.pos w.2.pos t)) := by
    intro t ht
    rw [hf]
    dsimp only
    by_cases hr : InReach w.1.pos w.2.pos t eps
    · have hin := (inRange_iff w.1.pos w.2.pos t eps).mpr hr
      rw [length_edist] at hin
      rw [hin]
      simp only [Bool.not_true, Bool.false_eq_true, if_false, pointFromParametric_eq]
      obtain ⟨⟨t0, t1⟩, g2⟩ := h.hits t ht hr
      have hsw := sweep_on ha he ht g2
      by_cases hs : OnSeg a.1 a.2 (linePoint w.1.pos w.2.pos t)
      · right
        rw [if_pos (hsw.mpr hs)]
        exact ⟨rfl, t0, t1, hs⟩
      · left
        rw [if_neg (fun h => hs (hsw.mp h))]
        exact ⟨rfl, fun h => hs h.2.2⟩
    · left
      have hin : Scalar.fuzzyInRangeEps (t * edist w.1.pos w.2.pos) 0 (edist w.1.pos w.2.pos) eps = false := by
        rw [← Bool.not_eq_true]
        intro hx
        rw [← length_edist] at hx
        exact hr ((inRange_iff w.1.pos w.2.pos t eps).mp hx)
      rw [hin]
      refine ⟨by simp, ?_⟩
      rintro ⟨t0, t1, -⟩
      apply hr
      unfold InReach
      constructor <;> nlinarith
  have hfx : ∀ t, (if (!Scalar.fuzzyInRangeEps (t * edist w.1.pos w.2.pos) 0 (edist w.1.pos w.2.pos) eps) = true then (none : Option (V2 ℝ))
    else
      if pointWithinArcSweep (segCenter a) a.1.pos a.2.pos a.1.bulgeIsNeg (pointFromParametric w.1.pos w.2.pos t) eps = true then some (pointFromParametric w.1.pos w.2.pos t) else none) = f t := by
    intro t; rw [hf]
  simp only [hfx]
  clear hf hfx
  have hcommon : ∀ q, OnSeg w.1 w.2 q ∧ OnSeg a.1 a.2 q ↔ ∃ t, q = linePoint w.1.pos w.2.pos t ∧ 0 ≤ t ∧ t ≤ 1 ∧ OnSeg a.1 a.2 (linePoint w.1.pos w.2.pos t) := by
    intro q
    constructor
    · rintro ⟨⟨t, t0, t1, et⟩, hq⟩
      rw [segCurve_line hw] at et
      exact ⟨t, et, t0, t1, by rw [← et]; exact hq⟩
    · rintro ⟨t, rfl, t0, t1, hq⟩
      exact ⟨⟨t, t0, t1, by rw [segCurve_line hw]⟩, hq⟩
  have hon : ∀ t, OnSeg a.1 a.2 (linePoint w.1.pos w.2.pos t) → OnCircle (segCenter a) (segRadius a) (linePoint w.1.pos w.2.pos t) :=
    fun t => onSeg_circle ha
  have hnone : ∀ r : PlineSegIntr ℝ, r = .noIntersect → (∀ q, ¬ (OnSeg w.1 w.2 q ∧ OnSeg a.1 a.2 q)) →
      r.overlap = none ∧ r.isolated.Nodup ∧ (∀ q, q ∈ r.isolated ↔ OnSeg w.1 w.2 q ∧ OnSeg a.1 a.2 q) ∧
      ∀ p q, uIsLine = true → r = .twoIntersects p q → ∃ x y, x < y ∧ p = linePoint w.1.pos w.2.pos x ∧ q = linePoint w.1.pos w.2.pos y := by
    rintro r rfl hno
    exact ⟨rfl, List.nodup_nil, fun q => ⟨fun h => (by cases h), fun h => absurd h (hno q)⟩, by simp⟩
  cases hres : lineCircleIntr w.1.pos w.2.pos (segRadius a) (segCenter a) eps with
  | noIntersect =>
    rw [hres] at hC
    dsimp only at hC
    refine hnone _ rfl fun q hq => ?_
    obtain ⟨t, -, -, -, ht⟩ := (hcommon q).mp hq
    have h1 := hC t
    have h2 : edist (linePoint w.1.pos w.2.pos t) (segCenter a) = segRadius a := hon t ht
    linarith
  | tangentIntersect t =>
    exfalso
    rw [hres] at hC
    dsimp only at hC
    obtain ⟨c1, c2⟩ := hC
    rw [abs_lt] at c1
    rcases h.depth with hd | ⟨t', hd⟩
    · have := hd t
      linarith
    · have := c2 t'
      linarith
  | twoIntersects t0 t1 =>
    rw [hres] at hC
    dsimp only at hC
    have hex : ∃ t, edist (linePoint w.1.pos w.2.pos t) (segCenter a) < segRadius a + eps := by
      rcases h.depth with hd | ⟨t', hd⟩
      · have h1 := hC.2 t0 (Or.inl rfl)
        have h2 := hd t0
        rw [abs_le] at h1
        linarith
      · exact ⟨t', by linarith⟩
    obtain ⟨hlt, hroots⟩ := hC.1 hex
    have hne : linePoint w.1.pos w.2.pos t0 ≠ linePoint w.1.pos w.2.pos t1 := fun e => hlt.ne (inj _ _ e)
    have hall : ∀ q, OnSeg w.1 w.2 q ∧ OnSeg a.1 a.2 q ↔
        (q = linePoint w.1.pos w.2.pos t0 ∧ 0 ≤ t0 ∧ t0 ≤ 1 ∧ OnSeg a.1 a.2 (linePoint w.1.pos w.2.pos t0)) ∨
        (q = linePoint w.1.pos w.2.pos t1 ∧ 0 ≤ t1 ∧ t1 ≤ 1 ∧ OnSeg a.1 a.2 (linePoint w.1.pos w.2.pos t1)) := by
      intro q
      rw [hcommon]
      constructor
      · rintro ⟨t, hq, a0, a1, ht⟩
        rcases (hroots t).mp (hon t ht) with rfl | rfl
        · exact Or.inl ⟨hq, a0, a1, ht⟩
        · exact Or.inr ⟨hq, a0, a1, ht⟩
      · rintro (⟨hq, hx⟩ | ⟨hq, hx⟩)
        · exact ⟨t0, hq, hx⟩
        · exact ⟨t1, hq, hx⟩
    rcases hsol t0 ((hroots t0).mpr (Or.inl rfl)) with ⟨f0, n0⟩ | ⟨f0, n0⟩ <;>
      rcases hsol t1 ((hroots t1).mpr (Or.inr rfl)) with ⟨f1, n1⟩ | ⟨f1, n1⟩ <;> simp only [f0, f1]
    · refine hnone _ rfl fun q hq => ?_
      rcases (hall q).mp hq with hx | hx
      · exact n0 hx.2
      · exact n1 hx.2
    · refine ⟨rfl, by simp [PlineSegIntr.isolated], fun q => ?_, by simp⟩
      simp only [PlineSegIntr.isolated, List.mem_singleton]
      rw [hall]; tauto
    · refine ⟨rfl, by simp [PlineSegIntr.isolated], fun q => ?_, by simp⟩
      simp only [PlineSegIntr.isolated, List.mem_singleton]
      rw [hall]; tauto
    · split_ifs with hif
      · refine ⟨rfl, by simp [PlineSegIntr.isolated, hne], fun q => ?_, ?_⟩
        swap
        · rintro p q - e
          injection e with e1 e2
          exact ⟨t0, t1, hlt, e1.symm, e2.symm⟩
        simp only [PlineSegIntr.isolated, List.mem_cons, List.not_mem_nil, or_false]
        rw [hall]; tauto
      · refine ⟨rfl, by simp [PlineSegIntr.isolated, hne.symm], fun q => ?_, ?_⟩
        swap
        · intro p q hu
          exact absurd (by rw [hu]; rfl) hif
        simp only [PlineSegIntr.isolated, List.mem_cons, List.not_mem_nil, or_false]
        rw [hall]; tauto

theorem circles_far {r1 r2 : ℝ} {c1 c2 : V2 ℝ} {eps : ℝ} (h0 : eps ≤ edist c1 c2) (h : r1 + r2 + eps ≤ edist c1 c2 ∨ edist c1 c2 + eps ≤ |r1 - r2|) :
    circleCircleIntr r1 c1 r2 c2 eps = .noIntersect := by
  have hd2 : (c2 - c1).dot (c2 - c1) = edist c1 c2 ^ 2 := by rw [edist_sq, V2.dot_eq]; simp; ring
  have hdn := edist_nonneg c1 c2
  unfold circleCircleIntr
  simp only [hd2, sqrt_eq, Real.sqrt_sq hdn, fuzzyEqZeroEps_eq, fuzzyEqEps_eq, fuzzyLtEps_eq, fuzzyGtEps_eq, lt_eq,
    decide_eq_true_eq, abs_of_nonneg hdn, abs_eq, two_eq]
  rw [if_neg (by linarith), if_pos]
  rcases h with h | h
  · rw [show decide (edist c1 c2 < r1 + r2 + eps) = false by simp; linarith]; rfl
  · rw [show decide (|r1 - r2| < edist c1 c2 + eps) = false by simp; linarith]; simp

theorem arcs_pair {v u : Vertex ℝ × Vertex ℝ} {eps : ℝ} (he : 0 < eps) (hv : ProperArc v.1 v.2) (hu : ProperArc u.1 u.2) (h : ClearArcs v u eps) :
    FindsPair v u eps := by
  have hbv := bulge_ne_zero hv.notLine
  have hbu := bulge_ne_zero hu.notLine
  have hr1n : 0 ≤ segRadius v := arcRadius_nonneg _ _ _
  have hr2n : 0 ≤ segRadius u := arcRadius_nonneg _ _ _
  have hC := C26_common_points (segRadius v) (segCenter v) (segRadius u) (segCenter u) eps hr1n hr2n he
  obtain ⟨x1, x2, x3, x4⟩ := h.ends
  have e1 := clear_not_on hv he x1
  have e2 := clear_not_on hv he x2
  have e3 := clear_not_on hu he x3
  have e4 := clear_not_on hu he x4
  have hno : ∀ q, OnSeg v.1 v.2 q ∧ OnSeg u.1 u.2 q → OnCircle (segCenter v) (segRadius v) q ∧ OnCircle (segCenter u) (segRadius u) q :=
    fun q hq => ⟨onSeg_circle hv hq.1, onSeg_circle hu hq.2⟩
  have hsw : ∀ q, OnCircle (segCenter v) (segRadius v) q → OnCircle (segCenter u) (segRadius u) q →
      ((pointWithinArcSweep (segCenter v) v.1.pos v.2.pos v.1.bulgeIsNeg q eps && pointWithinArcSweep (segCenter u) u.1.pos u.2.pos u.1.bulgeIsNeg q eps) = true ↔
        OnSeg v.1 v.2 q ∧ OnSeg u.1 u.2 q) := by
    intro q a b
    obtain ⟨c, d⟩ := h.hits q a b
    rw [Bool.and_eq_true, sweep_on hv he a c, sweep_on hu he b d]
  suffices hs : ∀ r, r = plineSegIntr v.1 v.2 u.1 u.2 eps → r.overlap = none ∧ r.isolated.Nodup ∧ ∀ q, q ∈ r.isolated ↔ OnSeg v.1 v.2 q ∧ OnSeg u.1 u.2 q by
    obtain ⟨a, b, c⟩ := hs _ rfl
    exact ⟨a, b, c⟩
  intro r hr
  unfold plineSegIntr at hr
  simp only [bulgeIsZero_false hv.notLine, bulgeIsZero_false hu.notLine, Bool.and_self, Bool.false_eq_true, if_false,
    segArcRadiusAndCenter_eq v.1 v.2 hbv hv.ne, segArcRadiusAndCenter_eq u.1 u.2 hbu hu.ne,
    show arcRadius v.1.pos v.2.pos v.1.bulge = segRadius v from rfl, show arcCenter v.1.pos v.2.pos v.1.bulge = segCenter v from rfl,
    show arcRadius u.1.pos u.2.pos u.1.bulge = segRadius u from rfl, show arcCenter u.1.pos u.2.pos u.1.bulge = segCenter u from rfl] at hr
  cases hres : circleCircleIntr (segRadius v) (segCenter v) (segRadius u) (segCenter u) eps with
  | noIntersect =>
    rw [hres] at hr hC
    dsimp only at hr hC
    subst hr
    exact ⟨rfl, List.nodup_nil, fun q => ⟨fun h => (by cases h), fun h => absurd (hno q h) (hC q)⟩⟩
  | overlapping =>
    rw [hres] at hC
    dsimp only at hC
    linarith [hC.1, h.centers]
  | tangentIntersect pt =>
    exfalso
    rw [hres] at hC
    dsimp only at hC
    rcases h.depth with hd | hd | ⟨p, q, hpq, hp, hq⟩
    · rw [circles_far h.centers (Or.inl hd)] at hres; cases hres
    · rw [circles_far h.centers (Or.inr hd)] at hres; cases hres
    · obtain ⟨a1, a2⟩ := hC p hp
      obtain ⟨b1, b2⟩ := hC q hq
      rw [abs_lt] at a1 a2 b1 b2
      rcases hpq with hx | hx
      · rcases le_abs.mp hx with hx | hx <;> linarith
      · rcases le_abs.mp hx with hx | hx <;> linarith
  | twoIntersects p q =>
    rw [hres] at hr hC
    dsimp only at hr hC
    obtain ⟨hne, hpts⟩ := hC
    obtain ⟨p1, p2⟩ := (hpts p).mpr (Or.inl rfl)
    obtain ⟨q1, q2⟩ := (hpts q).mpr (Or.inr rfl)
    have sp := hsw p p1 p2
    have sq := hsw q q1 q2
    have hall : ∀ x, OnSeg v.1 v.2 x ∧ OnSeg u.1 u.2 x ↔ (x = p ∧ OnSeg v.1 v.2 p ∧ OnSeg u.1 u.2 p) ∨ (x = q ∧ OnSeg v.1 v.2 q ∧ OnSeg u.1 u.2 q) := by
      intro x
      constructor
      · intro hx
        rcases (hpts x).mp (hno x hx) with rfl | rfl
        · exact Or.inl ⟨rfl, hx⟩
        · exact Or.inr ⟨rfl, hx⟩
      · rintro (⟨rfl, hx⟩ | ⟨rfl, hx⟩) <;> exact hx
    unfold arcArcTwoIntr at hr
    simp only [e1, e2, e3, e4, Bool.false_eq_true, if_false] at hr
    rw [hr]
    by_cases hp : OnSeg v.1 v.2 p ∧ OnSeg u.1 u.2 p <;> by_cases hq : OnSeg v.1 v.2 q ∧ OnSeg u.1 u.2 q
    · rw [sp.mpr hp, sq.mpr hq]
      refine ⟨rfl, by simp [PlineSegIntr.isolated, hne], fun x => ?_⟩
      simp only [Bool.and_self, if_true, PlineSegIntr.isolated, List.mem_cons, List.not_mem_nil, or_false]
      rw [hall]; tauto
    · rw [sp.mpr hp, Bool.eq_false_iff.mpr (fun h => hq (sq.mp h))]
      refine ⟨rfl, by simp [PlineSegIntr.isolated], fun x => ?_⟩
      simp only [Bool.and_false, Bool.false_eq_true, if_false, if_true, PlineSegIntr.isolated, List.mem_singleton]
      rw [hall]; tauto
    · rw [sq.mpr hq, Bool.eq_false_iff.mpr (fun h => hp (sp.mp h))]
      refine ⟨rfl, by simp [PlineSegIntr.isolated], fun x => ?_⟩
      simp only [Bool.false_and, Bool.false_eq_true, if_false, if_true, PlineSegIntr.isolated, List.mem_singleton]
      rw [hall]; tauto
    · rw [Bool.eq_false_iff.mpr (fun h => hp (sp.mp h)), Bool.eq_false_iff.mpr (fun h => hq (sq.mp h))]
      refine ⟨rfl, by simp [PlineSegIntr.isolated], fun x => ?_⟩
      simp only [Bool.false_and, Bool.false_eq_true, if_false, PlineSegIntr.isolated, List.not_mem_nil]
      rw [hall]; tauto

theorem clear_pair {s1 s2 : Vertex ℝ × Vertex ℝ} {eps : ℝ} (he : 0 < eps) (h : ClearPair s1 s2 eps) : FindsPair s1 s2 eps := by
  cases h with
  | lines h1 h2 h => exact clear_lines he h1 h2 h
  | lineArc h1 h2 h =>
    obtain ⟨a, b, c, -⟩ := lineArc_pair he h1 h2 h false
    have hI : plineSegIntr s1.1 s1.2 s2.1 s2.2 eps = processLineArcIntr false s1.1.pos s1.2.pos s2.1 s2.2 eps := by
      simp [plineSegIntr, bulgeIsZero_true h1, bulgeIsZero_false h2.notLine]
    exact ⟨by rw [hI]; exact a, by rw [hI]; exact b, fun q => by rw [hI]; exact c q⟩
  | arcLine h1 h2 h =>
    obtain ⟨a, b, c, -⟩ := lineArc_pair he h2 h1 h true
    have hI : plineSegIntr s1.1 s1.2 s2.1 s2.2 eps = processLineArcIntr true s2.1.pos s2.2.pos s1.1 s1.2 eps := by
      simp [plineSegIntr, bulgeIsZero_true h2, bulgeIsZero_false h1.notLine]
    exact ⟨by rw [hI]; exact a, by rw [hI]; exact b, fun q => by rw [hI, c q]; tauto⟩
  | arcs h1 h2 h => exact arcs_pair he h1 h2 h

end Cavc
