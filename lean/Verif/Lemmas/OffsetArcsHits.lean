import Verif.Spec.OffsetArcs
import Verif.Lemmas.ClearPairs
import Verif.Lemmas.OffsetArcsPart

/-! # Which common point of a line and a circle, or of two circles, a join uses -/

set_option linter.unusedVariables false

namespace Cavc
open RealScalar Pline

/-! ## Sweeps -/

/-- A point of an arc is in its sweep. -/
theorem on_sweep {a : Vertex ℝ × Vertex ℝ} (h : ProperArc a.1 a.2) {eps : ℝ} (he : 0 < eps) {t : ℝ} (h0 : 0 ≤ t) (h1 : t ≤ 1) :
    pointWithinArcSweep (segCenter a) a.1.pos a.2.pos a.1.bulgeIsNeg (segCurve a.1 a.2 t) eps = true := by
  have hb := bulge_ne_zero h.notLine
  have hθ := abs_four_arctan_le h.half
  rw [segCurve_arc h.notLine]
  set θ := 4 * Real.arctan a.1.bulge with hth
  set c := arcCenter a.1.pos a.2.pos a.1.bulge with hc
  have hsc : segCenter a = c := rfl
  have e2 := arcPoint_one a.1.pos a.2.pos a.1.bulge hb
  set r2 := (a.1.pos.x - c.x) ^ 2 + (a.1.pos.y - c.y) ^ 2 with hr
  have hr0 : 0 ≤ r2 := by positivity
  set X := arcPoint a.1.pos a.2.pos a.1.bulge t with hX
  have c1 : cross c a.1.pos X = r2 * Real.sin (t * θ) := by
    rw [hX, hr]
    unfold cross arcPoint
    simp only [rotV]
    rw [← hth, ← hc]
    ring
  have c2 : cross c a.2.pos X = -(r2 * Real.sin ((1 - t) * θ)) := by
    rw [← e2, hX, hr]
    unfold cross arcPoint
    simp only [rotV]
    rw [← hth, ← hc, one_mul, show (1 - t) * θ = θ - t * θ by ring, Real.sin_sub]
    ring
  rw [abs_le] at hθ
  have key : ∀ s, 0 ≤ s → s ≤ 1 → (0 ≤ θ → 0 ≤ r2 * Real.sin (s * θ)) ∧ (θ ≤ 0 → r2 * Real.sin (s * θ) ≤ 0) := by
    intro s s0 s1
    constructor
    · intro hp
      exact mul_nonneg hr0 (Real.sin_nonneg_of_nonneg_of_le_pi (by positivity) (by nlinarith))
    · intro hp
      exact mul_nonpos_of_nonneg_of_nonpos hr0 (Real.sin_nonpos_of_nonpos_of_neg_pi_le (mul_nonpos_of_nonneg_of_nonpos s0 hp) (by nlinarith))
  have k1 := key t h0 h1
  have k2 := key (1 - t) (by linarith) (by linarith)
  rw [← c1] at k1
  have k2' : (0 ≤ θ → cross c a.2.pos X ≤ 0) ∧ (θ ≤ 0 → 0 ≤ cross c a.2.pos X) := by
    rw [c2]
    exact ⟨fun h => by linarith [k2.1 h], fun h => by linarith [k2.2 h]⟩
  have v1 : ∀ e : V2 ℝ, perpDotTestValue c e X = cross c e X := by
    intro e; unfold perpDotTestValue cross; first | rfl | (simp; ring)
  rw [hsc]
  by_cases hn : a.1.bulge < 0
  · have hθn : θ ≤ 0 := by have := Real.arctan_lt_zero.mpr hn; linarith
    have hbn : a.1.bulgeIsNeg = true := by rw [Vertex.bulgeIsNeg_eq]; exact decide_eq_true hn
    rw [hbn]
    unfold pointWithinArcSweep isRightOrCoincidentEps isLeftOrCoincidentEps
    rw [if_pos rfl, v1, v1]
    have g1 := k1.2 hθn
    have g2 := k2'.2 hθn
    simp only [lt_eq, gt_eq, Bool.and_eq_true, decide_eq_true_eq]
    constructor <;> linarith
  · have hθn : 0 ≤ θ := by have := Real.arctan_nonneg.mpr (not_lt.mp hn); linarith
    have hbn : a.1.bulgeIsNeg = false := by rw [Vertex.bulgeIsNeg_eq]; exact decide_eq_false hn
    rw [hbn]
    unfold pointWithinArcSweep isRightOrCoincidentEps isLeftOrCoincidentEps
    rw [if_neg (by simp), v1, v1]
    have g1 := k1.1 hθn
    have g2 := k2'.1 hθn
    simp only [lt_eq, gt_eq, Bool.and_eq_true, decide_eq_true_eq]
    constructor <;> linarith

/-- A point of the circle that is clearly not on the arc is not in its sweep. -/
theorem off_sweep {a : Vertex ℝ × Vertex ℝ} (h : ProperArc a.1 a.2) {eps : ℝ} (he : 0 < eps) {X : V2 ℝ} (hc : OnCircle (segCenter a) (segRadius a) X)
    (ho : OffArc a X eps) : pointWithinArcSweep (segCenter a) a.1.pos a.2.pos a.1.bulgeIsNeg X eps = false := by
  rw [← Bool.not_eq_true]
  intro hs
  obtain ⟨q, hq, hd⟩ := near_of_sweep (d := 0) h he hs ho.1 (by
    have : edist X (arcCenter a.1.pos a.2.pos a.1.bulge) = arcRadius a.1.pos a.2.pos a.1.bulge := hc
    rw [this]; simp)
  rw [edist_zero hd] at ho
  exact ho.2 hq

/-! ## Line and circle -/

theorem mid_closer (p q c : V2 ℝ) (s t : ℝ) :
    edist (linePoint p q ((s + t) / 2)) c ^ 2 = edist (linePoint p q s) c ^ 2 / 2 + edist (linePoint p q t) c ^ 2 / 2 - ((t - s) / 2) ^ 2 * edist p q ^ 2 := by
  simp only [edist_sq, linePoint]
  ring

theorem edist_pos_of_ok {p q : V2 ℝ} {eps : ℝ} (he : 0 < eps) (h : LineOk p q eps) : 0 < edist p q := by
  rcases (edist_nonneg p q).lt_or_eq with h0 | h0
  · exact h0
  · exact absurd (edist_zero h0.symm.le) (apart_ne he h.1)

theorem distSquared_edist (p q : V2 ℝ) : distSquared p q = edist p q ^ 2 := by
  rw [edist_sq]; unfold distSquared; simp [V2.dot_eq]; ring

/-- The choice between the common points of a line and a circle. -/
noncomputable def pickLine {α : Type} (w : Vertex ℝ × Vertex ℝ) (r : ℝ) (c V : V2 ℝ) (eps : ℝ) (none : α) (f : ℝ → V2 ℝ → α) : α :=
  match lineCircleIntr w.1.pos w.2.pos r c eps with
  | .noIntersect => none
  | .tangentIntersect t0 => f t0 (pointFromParametric w.1.pos w.2.pos t0)
  | .twoIntersects t0 t1 =>
    if Scalar.lt (distSquared (pointFromParametric w.1.pos w.2.pos t0) V) (distSquared (pointFromParametric w.1.pos w.2.pos t1) V) then
      f t0 (pointFromParametric w.1.pos w.2.pos t0)
    else f t1 (pointFromParametric w.1.pos w.2.pos t1)

theorem pickLine_near {α : Type} {w a : Vertex ℝ × Vertex ℝ} (ha : ProperArc a.1 a.2) {V : V2 ℝ} {eps t : ℝ} (he : 0 < eps) (hw : LineOk w.1.pos w.2.pos eps)
    (h : NearestOnLine w a V eps t) (none : α) (f : ℝ → V2 ℝ → α) :
    pickLine w (segRadius a) (segCenter a) V eps none f = f t (linePoint w.1.pos w.2.pos t) := by
  have hr : 0 ≤ segRadius a := arcRadius_nonneg _ _ _
  have hL := edist_pos_of_ok he hw
  have spec := C25_line_circle w.1.pos w.2.pos (segRadius a) (segCenter a) eps hr he hw.1 hw.2
  unfold pickLine
  simp only [pointFromParametric_line, distSquared_edist]
  have sq : ∀ x y : ℝ, 0 ≤ x → x ≤ y → x ^ 2 ≤ y ^ 2 := fun x y h0 h1 => pow_le_pow_left₀ h0 h1 2
  cases hI : lineCircleIntr w.1.pos w.2.pos (segRadius a) (segCenter a) eps with
  | noIntersect =>
    rw [hI] at spec
    exfalso
    rcases h with ⟨on, _⟩ | ⟨on, _, _⟩
    all_goals
      have := spec t
      unfold OnCircle at on
      linarith
  | tangentIntersect t0 =>
    rw [hI] at spec
    dsimp only at spec ⊢
    rcases h with ⟨on, out⟩ | ⟨on, ⟨s, hs⟩, _⟩
    · unfold OnCircle at on
      have e0 : edist (linePoint w.1.pos w.2.pos t0) (segCenter a) = segRadius a := le_antisymm (by rw [← on]; exact spec.2 t) (out t0)
      have hm := mid_closer w.1.pos w.2.pos (segCenter a) t0 t
      have ho := sq _ _ hr (out ((t0 + t) / 2))
      rw [hm, e0, on] at ho
      have : ((t - t0) / 2) ^ 2 * edist w.1.pos w.2.pos ^ 2 ≤ 0 := by linarith
      have h2 : 0 < edist w.1.pos w.2.pos ^ 2 := by positivity
      have : ((t - t0) / 2) ^ 2 ≤ 0 := by
        by_contra hn
        have := mul_pos (not_le.mp hn) h2
        linarith
      have : t0 = t := by nlinarith [sq_nonneg ((t - t0) / 2)]
      rw [this]
    · exfalso
      have h1 := spec.2 s
      have h2 := (abs_lt.mp spec.1).1
      linarith
  | twoIntersects t0 t1 =>
    rw [hI] at spec
    dsimp only at spec ⊢
    have hon : OnCircle (segCenter a) (segRadius a) (linePoint w.1.pos w.2.pos t) := by
      rcases h with ⟨on, _⟩ | ⟨on, _, _⟩ <;> exact on
    obtain ⟨hlt, hall⟩ := spec.1 ⟨t, by unfold OnCircle at hon; rw [hon]; linarith⟩
    have o0 := (hall t0).mpr (Or.inl rfl)
    have o1 := (hall t1).mpr (Or.inr rfl)
    rcases h with ⟨on, out⟩ | ⟨on, _, near⟩
    · exfalso
      have hm := mid_closer w.1.pos w.2.pos (segCenter a) t0 t1
      have ho := sq _ _ hr (out ((t0 + t1) / 2))
      unfold OnCircle at o0 o1
      rw [hm, o0, o1] at ho
      have h2 : 0 < edist w.1.pos w.2.pos ^ 2 := by positivity
      have h3 : 0 < ((t1 - t0) / 2) ^ 2 := by
        have : 0 < (t1 - t0) / 2 := by linarith
        positivity
      have := mul_pos h3 h2
      linarith
    · have sq' : ∀ x y : V2 ℝ, edist x V < edist y V → edist x V ^ 2 < edist y V ^ 2 := fun x y hx => pow_lt_pow_left₀ hx (edist_nonneg _ _) (by norm_num)
      rcases (hall t).mp on with e | e
      · have := sq' _ _ (near t1 (by rw [e]; exact hlt.ne') o1)
        rw [← e, if_pos (by simpa using this)]
      · have := sq' _ _ (near t0 (by rw [e]; exact hlt.ne) o0)
        rw [← e, if_neg (by simpa using this.le)]

theorem pickLine_far {α : Type} {w a : Vertex ℝ × Vertex ℝ} (ha : ProperArc a.1 a.2) {V : V2 ℝ} {eps : ℝ} (he : 0 < eps) (hw : LineOk w.1.pos w.2.pos eps)
    (h : FarLine w a eps) (none : α) (f : ℝ → V2 ℝ → α) : pickLine w (segRadius a) (segCenter a) V eps none f = none := by
  have hr : 0 ≤ segRadius a := arcRadius_nonneg _ _ _
  have spec := C25_line_circle w.1.pos w.2.pos (segRadius a) (segCenter a) eps hr he hw.1 hw.2
  unfold pickLine
  cases hI : lineCircleIntr w.1.pos w.2.pos (segRadius a) (segCenter a) eps with
  | noIntersect => rfl
  | tangentIntersect t0 =>
    rw [hI] at spec
    exfalso
    have h1 := h t0
    have h2 := (abs_lt.mp spec.1).2
    linarith
  | twoIntersects t0 t1 =>
    rw [hI] at spec
    exfalso
    have h1 := h t0
    have h2 := (abs_le.mp (spec.2 t0 (Or.inl rfl))).2
    linarith

/-! ## Two circles -/

/-- The answer for circles that touch. -/
theorem circles_touch {r1 r2 : ℝ} {c1 c2 X : V2 ℝ} {eps : ℝ} (he : 0 < eps) (hr1 : 0 ≤ r1) (hr2 : 0 ≤ r2) (h1 : OnCircle c1 r1 X) (h2 : OnCircle c2 r2 X) (hc : eps ≤ edist c1 c2)
    (ht : edist c1 c2 = r1 + r2 ∨ edist c1 c2 = |r1 - r2|) : circleCircleIntr r1 c1 r2 c2 eps = .tangentIntersect X := by
  have hd2 : (c2 - c1).dot (c2 - c1) = edist c1 c2 ^ 2 := by rw [edist_sq, V2.dot_eq]; simp; ring
  have hdn := edist_nonneg c1 c2
  have hd : 0 < edist c1 c2 := by linarith
  have hle : edist c1 c2 ≤ r1 + r2 ∧ |r1 - r2| ≤ edist c1 c2 := by
    rcases ht with h | h
    · rw [h]; exact ⟨le_rfl, abs_le.mpr ⟨by linarith, by linarith⟩⟩
    · rw [h]; exact ⟨abs_le.mpr ⟨by linarith, by linarith⟩, le_rfl⟩
  set D := edist c1 c2 with hD
  have hcc : (c2.x - c1.x) ^ 2 + (c2.y - c1.y) ^ 2 = D ^ 2 := by rw [hD, edist_sq]; ring
  set a := (r1 * r1 - r2 * r2 + D ^ 2) / (2 * D) with ha
  have haD : 2 * D * a = r1 * r1 - r2 * r2 + D ^ 2 := by rw [ha]; field_simp
  have haa : a * a = r1 * r1 := by
    rcases ht with h | h
    · have : D * a = D * r1 := by rw [h] at haD ⊢; nlinarith
      rw [mul_left_cancel₀ hd.ne' this]
    · rcases abs_choice (r1 - r2) with e | e
      · rw [e] at h
        have : D * a = D * r1 := by
          have h' : r2 = r1 - D := by linarith
          rw [h'] at haD; nlinarith
        rw [mul_left_cancel₀ hd.ne' this]
      · rw [e] at h
        have : D * a = D * (-r1) := by
          have h' : r2 = r1 + D := by linarith
          rw [h'] at haD; nlinarith
        rw [mul_left_cancel₀ hd.ne' this]; ring
  have m1 := (onCircle_iff hr1 X).mp h1
  have m2 := (onCircle_iff hr2 X).mp h2
  -- the common point
  have hX : X.x = c1.x + a / D * (c2.x - c1.x) ∧ X.y = c1.y + a / D * (c2.y - c1.y) := by
    set k := a / D with hk
    have hkD : k * D = a := by rw [hk]; field_simp
    have hdot : 2 * ((X.x - c1.x) * (c2.x - c1.x) + (X.y - c1.y) * (c2.y - c1.y)) = 2 * (a * D) := by
      linear_combination m1 - m2 + hcc - haD
    have hz : (X.x - c1.x - k * (c2.x - c1.x)) ^ 2 + (X.y - c1.y - k * (c2.y - c1.y)) ^ 2 = 0 := by
      have e : (X.x - c1.x - k * (c2.x - c1.x)) ^ 2 + (X.y - c1.y - k * (c2.y - c1.y)) ^ 2 = r1 ^ 2 - 2 * k * (a * D) + k ^ 2 * D ^ 2 := by
        linear_combination m1 - k * hdot + k ^ 2 * hcc
      rw [e, show k ^ 2 * D ^ 2 = (k * D) ^ 2 by ring, show 2 * k * (a * D) = 2 * a * (k * D) by ring, hkD]
      linear_combination -haa
    obtain ⟨z1, z2⟩ := (add_eq_zero_iff_of_nonneg (sq_nonneg _) (sq_nonneg _)).mp hz
    have z1' := pow_eq_zero_iff (n := 2) (by norm_num) |>.mp z1
    have z2' := pow_eq_zero_iff (n := 2) (by norm_num) |>.mp z2
    exact ⟨by linarith, by linarith⟩
  unfold circleCircleIntr
  simp only [hd2, sqrt_eq, Real.sqrt_sq hdn, fuzzyEqZeroEps_eq, fuzzyEqEps_eq, fuzzyLtEps_eq, fuzzyGtEps_eq, lt_eq,
    decide_eq_true_eq, abs_of_nonneg hdn, abs_eq, two_eq]
  rw [← hD] at *
  rw [if_neg (not_lt.mpr hc), if_neg (by
    simp only [Bool.or_eq_true, Bool.not_eq_true', decide_eq_false_iff_not, not_or, not_not]
    constructor <;> linarith [hle.1, hle.2]), ← ha, haa, sub_self, if_neg (lt_irrefl 0), Real.sqrt_zero, zero_div, zero_mul, zero_mul]
  rw [if_pos (by
    rw [show ∀ m : V2 ℝ, ((⟨m.x + 0, m.y - 0⟩ : V2 ℝ).fuzzyEqEps ⟨m.x - 0, m.y + 0⟩ eps) = true from fun m => by simp [V2.fuzzyEqEps, he]])]
  congr 1
  rw [V2.ext_iff']
  refine ⟨?_, ?_⟩
  · simp [V2.scale]; linarith [hX.1]
  · simp [V2.scale]; linarith [hX.2]

theorem circles_far_all {a b : Vertex ℝ × Vertex ℝ} {eps : ℝ} (h : FarArcs a b eps) :
    circleCircleIntr (segRadius a) (segCenter a) (segRadius b) (segCenter b) eps = .noIntersect := by
  rcases h with ⟨h0, h1⟩ | ⟨h0, h1⟩
  · exact circles_far h0 h1
  · have hd2 : (segCenter b - segCenter a).dot (segCenter b - segCenter a) = edist (segCenter a) (segCenter b) ^ 2 := by rw [edist_sq, V2.dot_eq]; simp; ring
    have hdn := edist_nonneg (segCenter a) (segCenter b)
    unfold circleCircleIntr
    simp only [hd2, sqrt_eq, Real.sqrt_sq hdn, fuzzyEqZeroEps_eq, fuzzyEqEps_eq, decide_eq_true_eq, abs_of_nonneg hdn]
    rw [if_pos h0, if_neg (not_lt.mpr h1)]

theorem circles_same {r : ℝ} {c : V2 ℝ} {eps : ℝ} (he : 0 < eps) : circleCircleIntr r c r c eps = .overlapping := by
  unfold circleCircleIntr
  have hd2 : (c - c).dot (c - c) = 0 := by rw [V2.dot_eq]; simp
  simp only [hd2, sqrt_eq, Real.sqrt_zero, fuzzyEqZeroEps_eq, fuzzyEqEps_eq, decide_eq_true_eq, abs_zero, sub_self]
  rw [if_pos he, if_pos he]

/-- The choice between the common points of two circles. -/
noncomputable def pickArcs {α : Type} (r1 : ℝ) (c1 : V2 ℝ) (r2 : ℝ) (c2 V : V2 ℝ) (eps : ℝ) (none over : α) (both : V2 ℝ → Bool) (f : V2 ℝ → Bool → α) : α :=
  match circleCircleIntr r1 c1 r2 c2 eps with
  | .noIntersect => none
  | .tangentIntersect point => f point (both point)
  | .twoIntersects point1 point2 =>
    if Scalar.fuzzyEqEps (distSquared point1 V) (distSquared point2 V) eps then
      if both point1 then f point1 true else f point2 (both point2)
    else if Scalar.lt (distSquared point1 V) (distSquared point2 V) then f point1 (both point1)
    else f point2 (both point2)
  | .overlapping => over

theorem pickArcs_near {α : Type} {a b : Vertex ℝ × Vertex ℝ} {V X : V2 ℝ} {eps : ℝ} (he : 0 < eps)
    (h : NearestOnArcs a b V eps X) (none over : α) (both : V2 ℝ → Bool) (f : V2 ℝ → Bool → α) (hf : ∀ P Q, f P false = f Q false)
    (hoff : ∀ Y, OnBoth a b Y → OffArc a Y eps ∨ OffArc b Y eps → both Y = false) :
    pickArcs (segRadius a) (segCenter a) (segRadius b) (segCenter b) V eps none over both f = f X (both X) := by
  have hr1 : 0 ≤ segRadius a := arcRadius_nonneg _ _ _
  have hr2 : 0 ≤ segRadius b := arcRadius_nonneg _ _ _
  have spec := C26_common_points (segRadius a) (segCenter a) (segRadius b) (segCenter b) eps hr1 hr2 he
  have key : ∀ Y, OnBoth a b X → OnBoth a b Y → eps ≤ edist (segCenter a) (segCenter b) → Apart X Y (2 * eps) →
      ∃ p1 p2, circleCircleIntr (segRadius a) (segCenter a) (segRadius b) (segCenter b) eps = .twoIntersects p1 p2 ∧ ((p1 = X ∧ p2 = Y) ∨ (p1 = Y ∧ p2 = X)) := by
    intro Y hX hY hc hap
    cases hI : circleCircleIntr (segRadius a) (segCenter a) (segRadius b) (segCenter b) eps with
    | noIntersect => rw [hI] at spec; exact absurd hX (spec X)
    | overlapping => rw [hI] at spec; exact absurd spec.1 (not_lt.mpr hc)
    | tangentIntersect pt =>
      rw [hI] at spec
      exfalso
      have g1 := spec X hX
      have g2 := spec Y hY
      simp only [abs_lt] at g1 g2
      have hn := (apart_iff _ _ _).mpr hap
      have : X.fuzzyEqEps Y (2 * eps) = true := by
        unfold V2.fuzzyEqEps
        simp only [fuzzyEqEps_eq, Bool.and_eq_true, decide_eq_true_eq, abs_lt]
        refine ⟨⟨?_, ?_⟩, ?_, ?_⟩ <;> linarith [g1.1.1, g1.1.2, g1.2.1, g1.2.2, g2.1.1, g2.1.2, g2.2.1, g2.2.2]
      rw [hn] at this
      exact absurd this (by simp)
    | twoIntersects p1 p2 =>
      rw [hI] at spec
      refine ⟨p1, p2, rfl, ?_⟩
      have hne : X ≠ Y := apart_ne (by linarith) hap
      rcases (spec.2 X).mp hX with e | e <;> rcases (spec.2 Y).mp hY with e' | e'
      · exact absurd (e.trans e'.symm) hne
      · exact Or.inl ⟨e.symm, e'.symm⟩
      · exact Or.inr ⟨e'.symm, e.symm⟩
      · exact absurd (e.trans e'.symm) hne
  unfold pickArcs
  simp only [distSquared_edist]
  rcases h with ⟨on, hc, ht⟩ | ⟨Y, on, oth, hc, hap, near⟩ | ⟨Y, on, oth, hc, hap, near, off⟩
  · rw [circles_touch he hr1 hr2 on.1 on.2 hc ht]
  · obtain ⟨p1, p2, hI, ⟨rfl, rfl⟩ | ⟨rfl, rfl⟩⟩ := key Y on oth hc hap
    · rw [hI]
      dsimp only
      rw [if_neg (by simp only [fuzzyEqEps_eq, decide_eq_true_eq, not_lt]; rw [abs_of_neg (by linarith)]; linarith), if_pos (by simp; linarith)]
    · rw [hI]
      dsimp only
      rw [if_neg (by simp only [fuzzyEqEps_eq, decide_eq_true_eq, not_lt]; rw [abs_of_pos (by linarith)]; linarith), if_neg (by simp; linarith)]
  · have hoffY := hoff Y oth off
    obtain ⟨p1, p2, hI, ⟨rfl, rfl⟩ | ⟨rfl, rfl⟩⟩ := key Y on oth hc hap
    · rw [hI]
      dsimp only
      rw [if_pos (by simp only [fuzzyEqEps_eq, decide_eq_true_eq]; exact near)]
      by_cases hb : both p1 = true
      · rw [if_pos hb, hb]
      · rw [if_neg hb, hoffY, Bool.not_eq_true _ |>.mp hb, hf p2 p1]
    · rw [hI]
      dsimp only
      rw [if_pos (by simp only [fuzzyEqEps_eq, decide_eq_true_eq, abs_sub_comm]; rw [abs_sub_comm]; exact near), hoffY, if_neg (by simp)]

end Cavc
