import Verif.Lemmas.ArcBox

/-! # C24: line segment against line segment -/

set_option linter.unusedSectionVars false

namespace Cavc
open RealScalar

/-- The cross product of the direction vectors of two segments. -/
def dirCross (a1 a2 b1 b2 : V2 ℝ) : ℝ := (a2.x - a1.x) * (b2.y - b1.y) - (a2.y - a1.y) * (b2.x - b1.x)

/-- `t` is within the segment `p`–`q` up to the distance `eps` beyond either end. -/
def InReach (p q : V2 ℝ) (t eps : ℝ) : Prop := -eps < t * edist p q ∧ t * edist p q < edist p q + eps

theorem length_edist (p q : V2 ℝ) : (q - p).length = edist p q := by
  rw [V2.length_eq, edist]; congr 1; simp; ring

theorem inRange_iff (p q : V2 ℝ) (t eps : ℝ) :
    Scalar.fuzzyInRangeEps (t * (q - p).length) 0 (q - p).length eps = true ↔ InReach p q t eps := by
  rw [length_edist, fuzzyInRangeEps_eq]
  simp only [InReach, Bool.and_eq_true, decide_eq_true_eq, fuzzyGtEps_eq, fuzzyLtEps_eq]
  constructor
  · rintro ⟨h1, h2⟩; exact ⟨by linarith, by linarith⟩
  · rintro ⟨h1, h2⟩; exact ⟨by linarith, by linarith⟩

/-- **C24** (segments that are not parallel up to the tolerance) The lines meet in exactly one
point; the result carries its parameters on both segments, as a true intersect when both are within
their segment up to the distance `eps`, otherwise as a false one. -/
theorem C24_crossing (v1 v2 u1 u2 : V2 ℝ) (eps : ℝ) (heps : 0 < eps)
    (h : eps ≤ |dirCross v1 v2 u1 u2|) :
    ∃ t s, (∀ t' s', linePoint v1 v2 t' = linePoint u1 u2 s' ↔ t' = t ∧ s' = s) ∧
      (InReach v1 v2 t eps ∧ InReach u1 u2 s eps →
        lineLineIntr v1 v2 u1 u2 eps = .trueIntersect t s) ∧
      (¬ (InReach v1 v2 t eps ∧ InReach u1 u2 s eps) →
        lineLineIntr v1 v2 u1 u2 eps = .falseIntersect t s) := by
  have hd : dirCross v1 v2 u1 u2 ≠ 0 := by
    intro h0; rw [h0, abs_zero] at h; linarith
  have e : (v2 - v1).perpDot (u2 - u1) = dirCross v1 v2 u1 u2 := rfl
  have hz : Scalar.fuzzyEqZeroEps (dirCross v1 v2 u1 u2) eps = false := by
    rw [fuzzyEqZeroEps_eq]; exact decide_eq_false (not_lt.mpr h)
  set t := (u2 - u1).perpDot (v1 - u1) / dirCross v1 v2 u1 u2 with ht
  set s := (v2 - v1).perpDot (v1 - u1) / dirCross v1 v2 u1 u2 with hs
  refine ⟨t, s, ?_, ?_, ?_⟩
  · intro t' s'
    rw [V2.ext_iff']
    simp only [linePoint, ht, hs, V2.perpDot_eq, V2.sub_x, V2.sub_y]
    rw [eq_div_iff hd, eq_div_iff hd]
    constructor
    · rintro ⟨hx, hy⟩
      unfold dirCross
      constructor
      · linear_combination (u2.y - u1.y) * hx - (u2.x - u1.x) * hy
      · linear_combination (v2.y - v1.y) * hx - (v2.x - v1.x) * hy
    · rintro ⟨h1, h2⟩
      constructor
      · apply mul_left_cancel₀ hd
        unfold dirCross at *
        linear_combination (v2.x - v1.x) * h1 - (u2.x - u1.x) * h2
      · apply mul_left_cancel₀ hd
        unfold dirCross at *
        linear_combination (v2.y - v1.y) * h1 - (u2.y - u1.y) * h2
  · rintro ⟨h1, h2⟩
    rw [← inRange_iff] at h1 h2
    unfold lineLineIntr
    simp only [hz, e, ← ht, ← hs, h1, h2, Bool.not_false, if_true, Bool.not_true, Bool.or_self, Bool.false_eq_true, if_false]
  · intro hn
    rw [← inRange_iff, ← inRange_iff] at hn
    unfold lineLineIntr
    simp only [hz, e, ← ht, ← hs, Bool.not_false, if_true]
    rw [if_pos]
    simp only [Bool.or_eq_true, Bool.not_eq_true']
    by_contra hc
    push Not at hc
    exact hn ⟨by simpa using hc.1, by simpa using hc.2⟩

/-- **C24** (completeness) Segments that share a point and are not parallel up to the tolerance are
reported as a true intersect with the parameters of that point. -/
theorem C24_crossing_complete_partial (v1 v2 u1 u2 : V2 ℝ) (eps : ℝ) (heps : 0 < eps)
    (h : eps ≤ |dirCross v1 v2 u1 u2|) (t s : ℝ) (ht0 : 0 ≤ t) (ht1 : t ≤ 1) (hs0 : 0 ≤ s) (hs1 : s ≤ 1)
    (hcommon : linePoint v1 v2 t = linePoint u1 u2 s) :
    lineLineIntr v1 v2 u1 u2 eps = .trueIntersect t s := by
  obtain ⟨t', s', hu, htrue, _⟩ := C24_crossing v1 v2 u1 u2 eps heps h
  obtain ⟨rfl, rfl⟩ := (hu t s).mp hcommon
  apply htrue
  have hr : ∀ (p q : V2 ℝ) (x : ℝ), 0 ≤ x → x ≤ 1 → InReach p q x eps := by
    intro p q x h0 h1
    have hl := edist_nonneg p q
    constructor
    · nlinarith [mul_nonneg h0 hl]
    · nlinarith [mul_le_mul_of_nonneg_right h1 hl]
  exact ⟨hr _ _ _ ht0 ht1, hr _ _ _ hs0 hs1⟩

/-- `C24_crossing_complete_partial` applies: the diagonals of a square. -/
example : (1 / 100000 : ℝ) ≤ |dirCross ⟨0, 0⟩ ⟨2, 2⟩ ⟨0, 2⟩ ⟨2, 0⟩| ∧
    linePoint ⟨0, 0⟩ ⟨2, 2⟩ (1 / 2) = linePoint ⟨0, 2⟩ ⟨2, 0⟩ (1 / 2) := by
  constructor
  · norm_num [dirCross]
  · rw [V2.ext_iff']; norm_num [linePoint]

/-- **C24** A false intersect is only reported when the two segments share no point. -/
theorem C24_false_sound (v1 v2 u1 u2 : V2 ℝ) (eps : ℝ) (heps : 0 < eps) (t s : ℝ)
    (hf : lineLineIntr v1 v2 u1 u2 eps = .falseIntersect t s) :
    linePoint v1 v2 t = linePoint u1 u2 s ∧
    ∀ t' s', 0 ≤ t' → t' ≤ 1 → 0 ≤ s' → s' ≤ 1 → linePoint v1 v2 t' ≠ linePoint u1 u2 s' := by
  have hbig : eps ≤ |dirCross v1 v2 u1 u2| := by
    by_contra hc
    push Not at hc
    have e : (v2 - v1).perpDot (u2 - u1) = dirCross v1 v2 u1 u2 := rfl
    have hz : Scalar.fuzzyEqZeroEps (dirCross v1 v2 u1 u2) eps = true := by
      rw [fuzzyEqZeroEps_eq]; exact decide_eq_true hc
    unfold lineLineIntr at hf
    simp only [e, hz, Bool.not_true, Bool.false_eq_true, if_false] at hf
    split_ifs at hf
  constructor
  · obtain ⟨t', s', hu, htrue, hfalse⟩ := C24_crossing v1 v2 u1 u2 eps heps hbig
    by_cases hr : InReach v1 v2 t' eps ∧ InReach u1 u2 s' eps
    · rw [htrue hr] at hf; cases hf
    · rw [hfalse hr] at hf; cases hf
      exact (hu _ _).mpr ⟨rfl, rfl⟩
  · intro t' s' h0 h1 h2 h3 hc
    rw [C24_crossing_complete_partial v1 v2 u1 u2 eps heps hbig t' s' h0 h1 h2 h3 hc] at hf
    cases hf

/-- **C24** (parallel up to the tolerance, but apart) Nothing is reported, and the segments share no
point. -/
theorem C24_apart (v1 v2 u1 u2 : V2 ℝ) (eps : ℝ) (h : |dirCross v1 v2 u1 u2| < eps)
    (hw : eps ≤ |dirCross v1 v2 u1 v1| ∨ eps ≤ |dirCross u1 u2 u1 v1|) :
    lineLineIntr v1 v2 u1 u2 eps = .noIntersect ∧
    ∀ t s, 0 ≤ t → t ≤ 1 → 0 ≤ s → s ≤ 1 → linePoint v1 v2 t ≠ linePoint u1 u2 s := by
  constructor
  · have e : (v2 - v1).perpDot (u2 - u1) = dirCross v1 v2 u1 u2 := rfl
    have e2 : (v2 - v1).perpDot (v1 - u1) = dirCross v1 v2 u1 v1 := rfl
    have e3 : (u2 - u1).perpDot (v1 - u1) = dirCross u1 u2 u1 v1 := rfl
    have hz : Scalar.fuzzyEqZeroEps (dirCross v1 v2 u1 u2) eps = true := by
      rw [fuzzyEqZeroEps_eq]; exact decide_eq_true h
    unfold lineLineIntr
    simp only [e, hz, Bool.not_true, Bool.false_eq_true, if_false, e2, e3]
    rw [if_pos]
    simp only [fuzzyEqZeroEps_eq, Bool.or_eq_true, Bool.not_eq_true', decide_eq_false_iff_not, not_lt]
    exact hw
  · intro t s ht0 ht1 hs0 hs1 hc
    rw [V2.ext_iff'] at hc
    simp only [linePoint] at hc
    have h1 : dirCross v1 v2 u1 v1 = s * dirCross v1 v2 u1 u2 := by
      unfold dirCross
      linear_combination (v2.x - v1.x) * hc.2 - (v2.y - v1.y) * hc.1
    have h2 : dirCross u1 u2 u1 v1 = t * dirCross v1 v2 u1 u2 := by
      unfold dirCross
      linear_combination (u2.x - u1.x) * hc.2 - (u2.y - u1.y) * hc.1
    have hn := abs_nonneg (dirCross v1 v2 u1 u2)
    rw [h1, h2, abs_mul, abs_mul, abs_of_nonneg hs0, abs_of_nonneg ht0] at hw
    rcases hw with hw | hw
    · nlinarith
    · nlinarith

/-- The end points are apart in at least one coordinate. -/
def Apart (p q : V2 ℝ) (eps : ℝ) : Prop := eps ≤ |p.x - q.x| ∨ eps ≤ |p.y - q.y|

theorem apart_iff (p q : V2 ℝ) (eps : ℝ) : p.fuzzyEqEps q eps = false ↔ Apart p q eps := by
  rw [Bool.eq_false_iff, Ne, V2.fuzzyEqEps_iff, not_and_or, not_lt, not_lt]; rfl

theorem edist_linePoint (p q : V2 ℝ) (s s' : ℝ) :
    edist (linePoint p q s) (linePoint p q s') = |s - s'| * edist p q := by
  apply edist_eq_of_sq (mul_nonneg (abs_nonneg _) (edist_nonneg _ _))
  rw [mul_pow, sq_abs, edist_sq]; simp only [linePoint]; ring

theorem apart_le {p q : V2 ℝ} {eps : ℝ} (h : Apart p q eps) : eps ≤ edist p q := by
  have hx : |p.x - q.x| ≤ edist p q := by
    apply abs_le_of_sq_le_sq _ (edist_nonneg _ _)
    rw [edist_sq]; nlinarith [sq_nonneg (p.y - q.y)]
  have hy : |p.y - q.y| ≤ edist p q := by
    apply abs_le_of_sq_le_sq _ (edist_nonneg _ _)
    rw [edist_sq]; nlinarith [sq_nonneg (p.x - q.x)]
  rcases h with h | h <;> linarith

theorem near_le {p q : V2 ℝ} {eps : ℝ} (h : p.fuzzyEqEps q eps = true) : edist p q ≤ 3 / 2 * eps := by
  rw [V2.fuzzyEqEps_iff] at h
  have he : 0 ≤ eps := le_trans (abs_nonneg _) h.1.le
  have h1 := abs_lt.mp h.1
  have h2 := abs_lt.mp h.2
  refine le_trans (le_abs_self _) (abs_le_of_sq_le_sq ?_ (by positivity))
  rw [edist_sq]; nlinarith

theorem near_of_edist {p q : V2 ℝ} {eps : ℝ} (h : edist p q < eps) : p.fuzzyEqEps q eps = true := by
  by_contra hc
  rw [Bool.not_eq_true, apart_iff] at hc
  have := apart_le hc
  linarith

/-- **C24** (collinear segments) For segments on one line, both longer than the tolerance: nothing
is reported only if they share no point; an overlap is reported with the parameters, on the second
segment, of exactly the shared piece; a single intersect is reported only if the shared piece is
shorter than `eps`, and it is an end point of the first segment within `3 * eps` of the reported
point of the second. -/
theorem C24_collinear (v1 v2 u1 u2 : V2 ℝ) (eps : ℝ) (heps : 0 < eps)
    (hpar : dirCross v1 v2 u1 u2 = 0) (hcol : dirCross u1 u2 u1 v1 = 0)
    (hv : Apart v1 v2 eps) (hu : Apart u1 u2 eps) :
    match lineLineIntr v1 v2 u1 u2 eps with
    | .noIntersect => ∀ t s, 0 ≤ t → t ≤ 1 → 0 ≤ s → s ≤ 1 → linePoint v1 v2 t ≠ linePoint u1 u2 s
    | .trueIntersect t s => (t = 0 ∨ t = 1) ∧ InReach u1 u2 s eps ∧
        edist (linePoint v1 v2 t) (linePoint u1 u2 s) ≤ 3 * eps ∧
        ∀ t' s', 0 ≤ t' → t' ≤ 1 → 0 ≤ s' → s' ≤ 1 → linePoint v1 v2 t' = linePoint u1 u2 s' →
          edist (linePoint u1 u2 s') (linePoint u1 u2 s) < eps
    | .overlapping a b => 0 ≤ a ∧ a < b ∧ b ≤ 1 ∧
        ∀ q, ((∃ t, 0 ≤ t ∧ t ≤ 1 ∧ q = linePoint v1 v2 t) ∧ (∃ s, 0 ≤ s ∧ s ≤ 1 ∧ q = linePoint u1 u2 s)) ↔
          ∃ s, a ≤ s ∧ s ≤ b ∧ q = linePoint u1 u2 s
    | .falseIntersect _ _ => False := by
  have hL2 := apart_le hu
  have hL1 := apart_le hv
  have hLpos : 0 < edist u1 u2 := by linarith
  -- positions of the first segment's end points along the second
  have hτ : ∃ τ1 τ2, v1 = linePoint u1 u2 τ1 ∧ v2 = linePoint u1 u2 τ2 ∧
      (if Scalar.fuzzyEqZeroEps (u2 - u1).x eps then
        ((v1 - u1).y / (u2 - u1).y, (v2 - u1).y / (u2 - u1).y)
        else ((v1 - u1).x / (u2 - u1).x, (v2 - u1).x / (u2 - u1).x)) = (τ1, τ2) := by
    unfold dirCross at hpar hcol
    by_cases hx : |u2.x - u1.x| < eps
    · have hy : u2.y - u1.y ≠ 0 := by
        intro h0
        rcases hu with h | h
        · rw [abs_sub_comm] at h; linarith
        · rw [abs_sub_comm, h0, abs_zero] at h; linarith
      refine ⟨(v1.y - u1.y) / (u2.y - u1.y), (v2.y - u1.y) / (u2.y - u1.y), ?_, ?_, ?_⟩
      · rw [V2.ext_iff']; simp only [linePoint]
        constructor
        · field_simp; linear_combination -hcol
        · field_simp; ring
      · rw [V2.ext_iff']; simp only [linePoint]
        constructor
        · field_simp; linear_combination -hcol + hpar
        · field_simp; ring
      · rw [if_pos (by rw [fuzzyEqZeroEps_eq]; exact decide_eq_true hx)]; rfl
    · have hx0 : u2.x - u1.x ≠ 0 := by
        intro h0; rw [h0, abs_zero] at hx; exact hx heps
      refine ⟨(v1.x - u1.x) / (u2.x - u1.x), (v2.x - u1.x) / (u2.x - u1.x), ?_, ?_, ?_⟩
      · rw [V2.ext_iff']; simp only [linePoint]
        constructor
        · field_simp; ring
        · field_simp; linear_combination hcol
      · rw [V2.ext_iff']; simp only [linePoint]
        constructor
        · field_simp; ring
        · field_simp; linear_combination hcol - hpar
      · rw [if_neg (by rw [fuzzyEqZeroEps_eq]; simpa using hx)]; rfl
  obtain ⟨τ1, τ2, hv1, hv2, hts⟩ := hτ
  set L := edist u1 u2 with hL
  have hQ : ∀ s s', edist (linePoint u1 u2 s) (linePoint u1 u2 s') = |s - s'| * L := edist_linePoint u1 u2
  have hP : ∀ t, linePoint v1 v2 t = linePoint u1 u2 (τ1 + t * (τ2 - τ1)) := by
    intro t; conv_lhs => rw [hv1, hv2]
    rw [V2.ext_iff']; simp only [linePoint]; constructor <;> ring
  have hinj : ∀ s s', linePoint u1 u2 s = linePoint u1 u2 s' → s = s' := by
    intro s s' h
    have h1 := hQ s s'
    rw [h, hQ, sub_self, abs_zero, zero_mul] at h1
    have : |s - s'| = 0 := by
      rcases mul_eq_zero.mp h1.symm with h | h
      · exact h
      · linarith
    linarith [abs_eq_zero.mp this]
  have hvlen : edist v1 v2 = |τ1 - τ2| * L := by conv_lhs => rw [hv1, hv2, hQ]
  set lo := min τ1 τ2 with hlo
  set hi := max τ1 τ2 with hhi
  -- common points
  have hcommon : ∀ t s, 0 ≤ t → t ≤ 1 → linePoint v1 v2 t = linePoint u1 u2 s → lo ≤ s ∧ s ≤ hi := by
    intro t s h0 h1 h
    rw [hP] at h
    have := hinj _ _ h
    rw [hlo, hhi]
    rcases le_total τ1 τ2 with h2 | h2
    · rw [min_eq_left h2, max_eq_right h2]; constructor <;> nlinarith
    · rw [min_eq_right h2, max_eq_left h2]; constructor <;> nlinarith
  have hpiece : ∀ s, lo ≤ s → s ≤ hi → ∃ t, 0 ≤ t ∧ t ≤ 1 ∧ linePoint u1 u2 s = linePoint v1 v2 t := by
    intro s h1 h2
    have hne : τ2 - τ1 ≠ 0 := by
      intro h0
      rw [abs_sub_comm, h0, abs_zero, zero_mul] at hvlen
      linarith
    refine ⟨(s - τ1) / (τ2 - τ1), ?_, ?_, ?_⟩
    · rcases le_total τ1 τ2 with h3 | h3
      · rw [hlo, min_eq_left h3] at h1; exact div_nonneg (by linarith) (by linarith)
      · rw [hhi, max_eq_left h3] at h2; exact div_nonneg_of_nonpos (by linarith) (by linarith)
    · rcases le_total τ1 τ2 with h3 | h3
      · rw [hhi, max_eq_right h3] at h2
        rw [div_le_one (by have := lt_of_le_of_ne (sub_nonneg.mpr h3) hne.symm; exact this)]; linarith
      · rw [hlo, min_eq_right h3] at h1
        rw [div_le_one_of_neg (lt_of_le_of_ne (by linarith) hne)]; linarith
    · rw [hP]; congr 1; field_simp; ring
  have hlohi : lo ≤ hi := le_trans (min_le_left _ _) (le_max_left _ _)
  have hwidth : eps ≤ (hi - lo) * L := by
    have : |τ1 - τ2| = hi - lo := by
      rw [hlo, hhi]
      rcases le_total τ1 τ2 with h | h
      · rw [min_eq_left h, max_eq_right h, abs_of_nonpos (by linarith)]; ring
      · rw [min_eq_right h, max_eq_left h, abs_of_nonneg (by linarith)]
    rw [← this, ← hvlen]; exact hL1
  -- the value computed
  have hval : lineLineIntr v1 v2 u1 u2 eps =
      if L + eps ≤ lo * L ∨ hi * L ≤ -eps then .noIntersect
      else if |(min hi 1 - max lo 0) * L| < eps then
        .trueIntersect (if v1.fuzzyEqEps u1 eps || v1.fuzzyEqEps u2 eps then (0 : ℝ) else 1) (max lo 0)
      else .overlapping (max lo 0) (min hi 1) := by
    have e : (v2 - v1).perpDot (u2 - u1) = 0 := hpar
    have e3 : (u2 - u1).perpDot (v1 - u1) = 0 := hcol
    have e2 : (v2 - v1).perpDot (v1 - u1) = 0 := by
      rw [V2.perpDot_eq]
      have h1 := congrArg V2.x hv1
      have h2 := congrArg V2.y hv1
      have h3 := congrArg V2.x hv2
      have h4 := congrArg V2.y hv2
      simp only [linePoint] at h1 h2 h3 h4
      simp only [V2.sub_x, V2.sub_y]
      rw [h1, h2, h3, h4]; ring
    have hz : Scalar.fuzzyEqZeroEps (0 : ℝ) eps = true := by
      rw [fuzzyEqZeroEps_eq]; simpa using heps
    have hnv := (apart_iff _ _ _).mpr hv
    have hnu := (apart_iff _ _ _).mpr hu
    unfold lineLineIntr
    simp only [e, e2, e3, hz, Bool.not_true, Bool.false_eq_true, if_false, Bool.or_self, hnv, hnu, Bool.and_self, hts,
      length_edist, ← hL]
    have hsort : (if Scalar.gt τ1 τ2 then (τ2, τ1) else (τ1, τ2)) = (lo, hi) := by
      rw [gt_eq]
      by_cases h : τ2 < τ1
      · rw [if_pos (decide_eq_true h), hlo, hhi, min_eq_right h.le, max_eq_left h.le]
      · rw [if_neg (by simpa using h), hlo, hhi, min_eq_left (not_lt.mp h), max_eq_right (not_lt.mp h)]
    simp only [hsort, fuzzyLtEps_eq, fuzzyGtEps_eq, min_eq, max_eq, fuzzyEqZeroEps_eq, decide_eq_true_eq]
    have hiff : ((!decide (lo * L < L + eps) || !decide (0 < hi * L + eps)) = true) ↔ (L + eps ≤ lo * L ∨ hi * L ≤ -eps) := by
      simp only [Bool.or_eq_true, Bool.not_eq_true', decide_eq_false_iff_not, not_lt]
      constructor
      · rintro (h | h)
        · left; exact h
        · right; linarith
      · rintro (h | h)
        · left; exact h
        · right; linarith
    simp only [hiff]
  rw [hval]
  by_cases hno : L + eps ≤ lo * L ∨ hi * L ≤ -eps
  · rw [if_pos hno]
    intro t s ht0 ht1 hs0 hs1 h
    obtain ⟨h1, h2⟩ := hcommon t s ht0 ht1 h
    rcases hno with h3 | h3
    · nlinarith
    · nlinarith
  rw [if_neg hno]
  push Not at hno
  obtain ⟨hno1, hno2⟩ := hno
  by_cases hsmall : |(min hi 1 - max lo 0) * L| < eps
  · rw [if_pos hsmall]
    have hsm := abs_lt.mp hsmall
    dsimp only
    have hreach : InReach u1 u2 (max lo 0) eps := by
      constructor
      · have : 0 ≤ max lo 0 := le_max_right _ _
        rw [← hL]; nlinarith
      · rw [← hL]
        rcases max_cases lo 0 with ⟨h, _⟩ | ⟨h, _⟩ <;> rw [h]
        · linarith
        · nlinarith
    refine ⟨?_, hreach, ?_, ?_⟩
    · split_ifs
      · left; rfl
      · right; rfl
    · -- the touching end
      have habs : ∀ x y : ℝ, -(3 * eps) ≤ (x - y) * L → (x - y) * L ≤ 3 * eps → |x - y| * L ≤ 3 * eps := by
        intro x y h1 h2
        have : |x - y| * L = |(x - y) * L| := by rw [abs_mul, abs_of_pos hLpos]
        rw [this, abs_le]; exact ⟨h1, h2⟩
      have hnear : ∀ x y : ℝ, (linePoint u1 u2 x).fuzzyEqEps (linePoint u1 u2 y) eps = true →
          -(3 / 2 * eps) ≤ (x - y) * L ∧ (x - y) * L ≤ 3 / 2 * eps := by
        intro x y h
        have h1 := near_le h
        rw [hQ] at h1
        have : |x - y| * L = |(x - y) * L| := by rw [abs_mul, abs_of_pos hLpos]
        rw [this, abs_le] at h1
        exact h1
      have hfar : ∀ x y : ℝ, (linePoint u1 u2 x).fuzzyEqEps (linePoint u1 u2 y) eps = false →
          eps ≤ (x - y) * L ∨ (x - y) * L ≤ -eps := by
        intro x y h
        by_contra hc
        push Not at hc
        have : |x - y| * L = |(x - y) * L| := by rw [abs_mul, abs_of_pos hLpos]
        have h2 : edist (linePoint u1 u2 x) (linePoint u1 u2 y) < eps := by
          rw [hQ, this, abs_lt]; exact ⟨hc.2, hc.1⟩
        rw [near_of_edist h2] at h; cases h
      have hu1 : u1 = linePoint u1 u2 0 := by rw [V2.ext_iff']; simp [linePoint]
      have hu2 : u2 = linePoint u1 u2 1 := by rw [V2.ext_iff']; simp [linePoint]
      have hlo1 : lo ≤ τ1 := min_le_left _ _
      have hhi1 : τ1 ≤ hi := le_max_left _ _
      have hlo1L := mul_le_mul_of_nonneg_right hlo1 hLpos.le
      have hhi1L := mul_le_mul_of_nonneg_right hhi1 hLpos.le
      -- either the shared piece starts at the second segment's start, or it ends at its end
      have hcase : (max lo 0 = 0 ∧ hi * L < eps) ∨ (max lo 0 = lo ∧ L - eps < lo * L ∧ 0 ≤ lo) := by
        rcases max_cases lo 0 with ⟨h1, h1'⟩ | ⟨h1, h1'⟩ <;> rcases min_cases hi 1 with ⟨h2, h2'⟩ | ⟨h2, h2'⟩ <;>
          rw [h1, h2] at hsm
        · exfalso; linarith [hsm.2]
        · right; exact ⟨h1, by nlinarith [hsm.2], h1'⟩
        · left; exact ⟨h1, by nlinarith [hsm.2]⟩
        · exfalso; nlinarith [hsm.2]
      by_cases hsel : (v1.fuzzyEqEps u1 eps || v1.fuzzyEqEps u2 eps) = true
      · rw [if_pos hsel, hP, hQ, zero_mul, add_zero]
        rw [Bool.or_eq_true] at hsel
        have hsel' : (-(3 / 2 * eps) ≤ τ1 * L ∧ τ1 * L ≤ 3 / 2 * eps) ∨
            (-(3 / 2 * eps) ≤ τ1 * L - L ∧ τ1 * L - L ≤ 3 / 2 * eps) := by
          rcases hsel with h | h
          · left
            rw [hv1] at h
            conv at h => lhs; arg 2; rw [hu1]
            have := hnear _ _ h
            rw [sub_zero] at this; exact this
          · right
            rw [hv1] at h
            conv at h => lhs; arg 2; rw [hu2]
            have := hnear _ _ h
            rw [sub_mul, one_mul] at this; exact this
        apply habs
        · rw [sub_mul]
          rcases hcase with ⟨h1, h2⟩ | ⟨h1, h2, h3⟩ <;> rw [h1] <;> rcases hsel' with h4 | h4 <;> linarith [h4.1, h4.2]
        · rw [sub_mul]
          rcases hcase with ⟨h1, h2⟩ | ⟨h1, h2, h3⟩ <;> rw [h1] <;> rcases hsel' with h4 | h4 <;> linarith [h4.1, h4.2]
      · rw [if_neg hsel, hP, hQ, one_mul]
        rw [Bool.not_eq_true, Bool.or_eq_false_iff] at hsel
        obtain ⟨hs1, hs2⟩ := hsel
        have hf1 : eps ≤ τ1 * L ∨ τ1 * L ≤ -eps := by
          rw [hv1] at hs1
          conv at hs1 => lhs; arg 2; rw [hu1]
          have := hfar _ _ hs1
          rw [sub_zero] at this; exact this
        have hf2 : eps ≤ τ1 * L - L ∨ τ1 * L - L ≤ -eps := by
          rw [hv1] at hs2
          conv at hs2 => lhs; arg 2; rw [hu2]
          have := hfar _ _ hs2
          rw [sub_mul, one_mul] at this; exact this
        have e : τ1 + (τ2 - τ1) = τ2 := by ring
        rw [e]
        -- so the touching end is the second vertex
        rcases hcase with ⟨h1, h2⟩ | ⟨h1, h2, h3⟩
        · have hτ : hi = τ2 := by
            rw [hhi]
            rcases max_cases τ1 τ2 with ⟨h4, h5⟩ | ⟨h4, _⟩
            · exfalso
              rw [← hhi] at h4
              rw [h4] at h2 hno2
              rcases hf1 with h | h <;> linarith
            · exact h4
          rw [h1]
          apply habs <;> rw [sub_zero, ← hτ] <;> linarith
        · have hτ : lo = τ2 := by
            rw [hlo]
            rcases min_cases τ1 τ2 with ⟨h4, h5⟩ | ⟨h4, _⟩
            · exfalso
              rw [← hlo] at h4
              rw [h4] at h2 hno1
              rcases hf2 with h | h <;> linarith
            · exact h4
          rw [h1, hτ, sub_self, abs_zero, zero_mul]
          linarith
    · intro t' s' ht0 ht1 hs0 hs1 h
      obtain ⟨h1, h2⟩ := hcommon t' s' ht0 ht1 h
      rw [hQ]
      have h3 : max lo 0 ≤ s' := max_le h1 hs0
      have h4 : s' ≤ min hi 1 := le_min h2 hs1
      rw [abs_of_nonneg (by linarith)]
      nlinarith [hsm.2]
  · rw [if_neg hsmall]
    push Not at hsmall
    have hgap : -eps < (min hi 1 - max lo 0) * L := by
      rcases max_cases lo 0 with ⟨h1, h1'⟩ | ⟨h1, h1'⟩ <;> rcases min_cases hi 1 with ⟨h2, h2'⟩ | ⟨h2, h2'⟩ <;>
        rw [h1, h2] <;> nlinarith
    have hpos : 0 < (min hi 1 - max lo 0) * L := by
      by_contra hc
      push Not at hc
      rw [abs_of_nonpos hc] at hsmall
      linarith
    have hlt : max lo 0 < min hi 1 := by
      by_contra hc
      push Not at hc
      nlinarith
    refine ⟨le_max_right _ _, hlt, min_le_right _ _, ?_⟩
    intro q
    constructor
    · rintro ⟨⟨t, ht0, ht1, h1⟩, ⟨s, hs0, hs1, h2⟩⟩
      obtain ⟨h3, h4⟩ := hcommon t s ht0 ht1 (h1.symm.trans h2)
      exact ⟨s, max_le h3 hs0, le_min h4 hs1, h2⟩
    · rintro ⟨s, h1, h2, rfl⟩
      obtain ⟨t, ht0, ht1, he⟩ := hpiece s (le_trans (le_max_left _ _) h1) (le_trans h2 (min_le_left _ _))
      exact ⟨⟨t, ht0, ht1, he⟩, ⟨s, le_trans (le_max_right _ _) h1, le_trans h2 (min_le_right _ _), rfl⟩⟩

/-- `C24_collinear` applies: two overlapping segments of the x axis. -/
example : dirCross ⟨0, 0⟩ ⟨4, 0⟩ ⟨1, 0⟩ ⟨7, 0⟩ = 0 ∧ dirCross ⟨1, 0⟩ ⟨7, 0⟩ ⟨1, 0⟩ ⟨0, 0⟩ = 0 ∧
    Apart ⟨0, 0⟩ ⟨4, 0⟩ (1 / 100000) ∧ Apart ⟨1, 0⟩ ⟨7, 0⟩ (1 / 100000) := by
  norm_num [dirCross, Apart]

theorem apart_ne {p q : V2 ℝ} {eps : ℝ} (heps : 0 < eps) (h : Apart p q eps) : p ≠ q := by
  rintro rfl
  have := apart_le h
  unfold edist at this
  simp at this; linarith

theorem parametric_on_line {u1 u2 v : V2 ℝ} (hne : u1 ≠ u2) (hcol : dirCross u1 u2 u1 v = 0) :
    v = linePoint u1 u2 (parametricFromPoint u1 u2 v) := by
  unfold dirCross at hcol
  unfold parametricFromPoint
  simp only [lt_eq, abs_eq, decide_eq_true_eq]
  split_ifs with h
  · have hy : u2.y - u1.y ≠ 0 := by
      intro h0; rw [h0, abs_zero] at h; exact absurd h (not_lt.mpr (abs_nonneg _))
    rw [V2.ext_iff']; simp only [linePoint]
    constructor
    · field_simp; linear_combination -hcol
    · field_simp; ring
  · have hx : u2.x - u1.x ≠ 0 := by
      intro h0; rw [h0, abs_zero] at h
      have hy : u2.y - u1.y = 0 := by
        by_contra hy; exact h (abs_pos.mpr hy)
      apply hne; rw [V2.ext_iff']; constructor <;> linarith
    rw [V2.ext_iff']; simp only [linePoint]
    constructor
    · field_simp; ring
    · field_simp; linear_combination hcol

/-- **C24** (first segment a single point on the line of the second) A true intersect carrying the
point's parameter if it is within the second segment up to `eps`, otherwise nothing. -/
theorem C24_point_first (v u1 u2 : V2 ℝ) (eps : ℝ) (heps : 0 < eps) (hcol : dirCross u1 u2 u1 v = 0)
    (hu : Apart u1 u2 eps) :
    ∃ s, v = linePoint u1 u2 s ∧
      (InReach u1 u2 s eps → lineLineIntr v v u1 u2 eps = .trueIntersect 0 s) ∧
      (¬ InReach u1 u2 s eps → lineLineIntr v v u1 u2 eps = .noIntersect) := by
  have hz : Scalar.fuzzyEqZeroEps (0 : ℝ) eps = true := by
    rw [fuzzyEqZeroEps_eq]; simpa using heps
  have e : (v - v).perpDot (u2 - u1) = 0 := by rw [V2.perpDot_eq]; simp
  have e2 : (v - v).perpDot (v - u1) = 0 := by rw [V2.perpDot_eq]; simp
  have e3 : (u2 - u1).perpDot (v - u1) = 0 := hcol
  have hnv : v.fuzzyEqEps v eps = true := near_of_edist (by unfold edist; simpa using heps)
  have hnu := (apart_iff _ _ _).mpr hu
  have hval : lineLineIntr v v u1 u2 eps = if Scalar.fuzzyInRangeEps (parametricFromPoint u1 u2 v * (u2 - u1).length) 0 (u2 - u1).length eps then .trueIntersect 0 (parametricFromPoint u1 u2 v)
        else .noIntersect := by
    unfold lineLineIntr
    simp only [e, e2, e3, hz, Bool.not_true, Bool.false_eq_true, if_false, Bool.or_self, hnv, hnu, Bool.and_false, if_true]
  refine ⟨parametricFromPoint u1 u2 v, parametric_on_line (apart_ne heps hu) hcol, ?_, ?_⟩
  · intro h; rw [hval, if_pos ((inRange_iff _ _ _ _).mpr h)]
  · intro h; rw [hval, if_neg (fun h' => h ((inRange_iff _ _ _ _).mp h'))]

/-- **C24** (second segment a single point on the line of the first). -/
theorem C24_point_second (v1 v2 u : V2 ℝ) (eps : ℝ) (heps : 0 < eps) (hcol : dirCross v1 v2 v1 u = 0)
    (hv : Apart v1 v2 eps) :
    ∃ t, u = linePoint v1 v2 t ∧
      (InReach v1 v2 t eps → lineLineIntr v1 v2 u u eps = .trueIntersect t 0) ∧
      (¬ InReach v1 v2 t eps → lineLineIntr v1 v2 u u eps = .noIntersect) := by
  have hz : Scalar.fuzzyEqZeroEps (0 : ℝ) eps = true := by
    rw [fuzzyEqZeroEps_eq]; simpa using heps
  have e : (v2 - v1).perpDot (u - u) = 0 := by rw [V2.perpDot_eq]; simp
  have e2 : (u - u).perpDot (v1 - u) = 0 := by rw [V2.perpDot_eq]; simp
  have e3 : (v2 - v1).perpDot (v1 - u) = 0 := by
    rw [V2.perpDot_eq]; simp only [V2.sub_x, V2.sub_y]; unfold dirCross at hcol; linear_combination -hcol
  have hnu : u.fuzzyEqEps u eps = true := near_of_edist (by unfold edist; simpa using heps)
  have hnv := (apart_iff _ _ _).mpr hv
  have hval : lineLineIntr v1 v2 u u eps = if Scalar.fuzzyInRangeEps (parametricFromPoint v1 v2 u * (v2 - v1).length) 0 (v2 - v1).length eps then .trueIntersect (parametricFromPoint v1 v2 u) 0
        else .noIntersect := by
    unfold lineLineIntr
    simp only [e, e2, e3, hz, Bool.not_true, Bool.false_eq_true, if_false, Bool.or_self, hnv, hnu, Bool.false_and, if_true]
  refine ⟨parametricFromPoint v1 v2 u, parametric_on_line (apart_ne heps hv) hcol, ?_, ?_⟩
  · intro h; rw [hval, if_pos ((inRange_iff _ _ _ _).mpr h)]
  · intro h; rw [hval, if_neg (fun h' => h ((inRange_iff _ _ _ _).mp h'))]

/-- **C24** (two single points) -/
theorem C24_points (v u : V2 ℝ) (eps : ℝ) (heps : 0 < eps) :
    lineLineIntr v v u u eps = if v.fuzzyEqEps u eps then .trueIntersect 0 0 else .noIntersect := by
  have hz : Scalar.fuzzyEqZeroEps (0 : ℝ) eps = true := by
    rw [fuzzyEqZeroEps_eq]; simpa using heps
  have e : (v - v).perpDot (u - u) = 0 := by rw [V2.perpDot_eq]; simp
  have e2 : (u - u).perpDot (v - u) = 0 := by rw [V2.perpDot_eq]; simp
  have e3 : (v - v).perpDot (v - u) = 0 := by rw [V2.perpDot_eq]; simp
  have hnu : u.fuzzyEqEps u eps = true := near_of_edist (by unfold edist; simpa using heps)
  have hnv : v.fuzzyEqEps v eps = true := near_of_edist (by unfold edist; simpa using heps)
  unfold lineLineIntr
  simp only [e, e2, e3, hz, Bool.not_true, Bool.false_eq_true, if_false, Bool.or_self, hnv, hnu, Bool.and_self, if_true]

/-- Disagreement: the parallel test compares an area, so two short perpendicular segments that
cross are treated as collinear.  The segments from `(0, 0)` to `(3/1000, 0)` and from
`(1/1000, -1/1000)` to `(1/1000, 2/1000)` cross at `(1/1000, 0)`; with `eps = 1e-5` the reported
parameters are `1` and `1/3`, two different points. -/
theorem C24_short_crossing_witness :
    linePoint ⟨0, 0⟩ ⟨3 / 1000, 0⟩ (1 / 3) = linePoint ⟨1 / 1000, -1 / 1000⟩ ⟨1 / 1000, 2 / 1000⟩ (1 / 3) ∧
    lineLineIntr (T := ℝ) ⟨0, 0⟩ ⟨3 / 1000, 0⟩ ⟨1 / 1000, -1 / 1000⟩ ⟨1 / 1000, 2 / 1000⟩ (1 / 100000)
      = .trueIntersect 1 (1 / 3) := by
  constructor
  · rw [V2.ext_iff']; norm_num [linePoint]
  · have hl : V2.length ((⟨1 / 1000, 2 / 1000⟩ : V2 ℝ) - ⟨1 / 1000, -1 / 1000⟩) = 3 / 1000 := by
      rw [V2.length_eq, Real.sqrt_eq_iff_mul_self_eq_of_pos (by norm_num)]
      simp; norm_num
    unfold lineLineIntr
    simp only [hl]
    norm_num [V2.perpDot_eq, V2.fuzzyEqEps, abs_of_pos, abs_of_neg]

end Cavc
